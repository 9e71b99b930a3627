import Verif.Lemmas.JsonText
/-
What `loads` reads is a proper value; every reader consumes text; the fuel of the readers never runs out.
-/
namespace PyFCM
open Spec

/-! ### Consumption -/

theorem skipWs_length (s : List Char) : (skipWs s).length ≤ s.length := by
  induction s with
  | nil => simp [skipWs]
  | cons c s ih =>
    unfold skipWs; split
    · simp only [List.length_cons]; omega
    · simp

theorem skipWs_idem (s : List Char) : skipWs (skipWs s) = skipWs s := by
  induction s with
  | nil => rfl
  | cons c s ih =>
    by_cases h : IsWs c
    · have : skipWs (c :: s) = skipWs s := skipWs_ws (w := [c]) (by simpa using h) s
      rw [this, ih]
    · rw [skipWs_cons h, skipWs_cons h]

theorem readHex4_length {s r : List Char} {n : Nat} (h : readHex4 s = some (n, r)) : r.length < s.length := by
  unfold readHex4 at h
  split at h
  · simp only [bind, Option.bind_eq_some_iff, pure, Option.some.injEq, Prod.mk.injEq] at h
    obtain ⟨_, _, _, _, _, _, _, _, _, e⟩ := h
    subst e; simp only [List.length_cons]; omega
  · cases h

theorem readUnicode_length {s r : List Char} {c : Char} (h : readUnicode s = some (c, r)) : r.length < s.length := by
  unfold readUnicode at h
  simp only [bind, Option.bind_eq_some_iff, Prod.exists] at h
  obtain ⟨n, t, h1, h⟩ := h
  have l1 := readHex4_length h1
  split at h
  · split at h
    · simp only [Option.bind_eq_some_iff, Prod.exists] at h
      obtain ⟨k, u, h2, h⟩ := h
      have l2 := readHex4_length h2
      split at h
      · simp only [pure, Option.some.injEq, Prod.mk.injEq] at h
        rw [← h.2]; simp only [List.length_cons] at l1; omega
      · cases h
    · cases h
  · split at h
    · cases h
    · simp only [pure, Option.some.injEq, Prod.mk.injEq] at h
      rw [← h.2]; exact l1

theorem readChar_length {s r : List Char} {c : Char} (h : readChar s = some (c, r)) : r.length < s.length := by
  unfold readChar at h
  split at h
  · have := readUnicode_length h
    simp only [List.length_cons]; omega
  · simp only [List.length_cons]
    repeat' split at h
    all_goals first
      | (cases h; done)
      | (injection h with h; injection h with _ h; subst h; omega)
  · cases h
  · split at h
    · cases h
    · injection h with h; injection h with _ h; subst h; simp
  · cases h

theorem readBody_length {n : Nat} {s r cs : List Char} (h : readBody n s = some (cs, r)) : r.length < s.length := by
  induction n generalizing s r cs with
  | zero => simp [readBody] at h
  | succ n ih =>
    unfold readBody at h
    split at h
    · injection h with h; injection h with _ h; subst h; simp
    · simp only [bind, Option.bind_eq_some_iff, Prod.exists, pure, Option.some.injEq, Prod.mk.injEq] at h
      obtain ⟨c, t, h1, cs', u, h2, _, e⟩ := h
      have := readChar_length h1
      have := ih h2
      subst e; omega

theorem readString_length {s r : List Char} {k : String} (h : readString s = some (k, r)) : r.length < s.length := by
  unfold readString at h
  simp only [Option.map_eq_some_iff, Prod.exists, Prod.mk.injEq] at h
  obtain ⟨cs, t, h, _, e⟩ := h
  subst e; exact readBody_length h

theorem dropWhile_length (p : Char → Bool) (s : List Char) : (s.dropWhile p).length ≤ s.length := by
  induction s with
  | nil => simp
  | cons c s ih => rw [List.dropWhile_cons]; split <;> simp only [List.length_cons] <;> omega

theorem takeWhile_digits (s : List Char) : ∀ c ∈ s.takeWhile isDigit, c ∈ "0123456789".toList := by
  induction s with
  | nil => simp
  | cons d s ih =>
    intro c h
    rw [List.takeWhile_cons] at h
    split at h
    · rename_i hd
      rcases List.mem_cons.mp h with h | h
      · subst h; exact isDigit_iff.mp hd
      · exact ih c h
    · cases h

theorem readInt_spec {s i r : List Char} (h : readInt s = some (i, r)) : IntPart i ∧ r.length < s.length := by
  unfold readInt at h
  split at h
  · split at h
    · injection h with h; injection h with h1 h2; subst h1 h2
      exact ⟨.inl rfl, by simp⟩
    · split at h
      · rename_i c t h0 hd
        injection h with h; injection h with h1 h2; subst h1 h2
        refine ⟨.inr ⟨c, _, rfl, h0, ?_⟩, ?_⟩
        · intro d h
          rcases List.mem_cons.mp h with h | h
          · subst h; exact isDigit_iff.mp hd
          · exact takeWhile_digits _ d h
        · have := dropWhile_length isDigit t
          simp only [List.length_cons]; omega
      · cases h
  · cases h

theorem readFrac_spec (s : List Char) : FracPart (readFrac s).1 ∧ (readFrac s).2.length ≤ s.length := by
  unfold readFrac
  split
  · split
    · rename_i d t hd
      refine ⟨.inr ⟨d, _, rfl, ?_⟩, ?_⟩
      · intro c h
        rcases List.mem_cons.mp h with h | h
        · subst h; exact isDigit_iff.mp hd
        · exact takeWhile_digits _ c h
      · have := dropWhile_length isDigit t
        simp only [List.length_cons]; omega
    · exact ⟨.inl rfl, Nat.le_refl _⟩
  · exact ⟨.inl rfl, Nat.le_refl _⟩

theorem readExp_spec (s : List Char) : ExpPart (readExp s).1 ∧ (readExp s).2.length ≤ s.length := by
  unfold readExp
  split
  · rename_i e s
    split
    · rename_i he
      split
      · rename_i g d t
        split
        · rename_i hg
          refine ⟨.inr ⟨e, [], g, _, rfl, he, .inl rfl, ?_⟩, ?_⟩
          · intro c h
            rcases List.mem_cons.mp h with h | h
            · subst h; exact isDigit_iff.mp hg
            · exact takeWhile_digits _ c h
          · have := dropWhile_length isDigit (d :: t)
            simp only [List.length_cons] at *; omega
        · split
          · rename_i hg
            refine ⟨.inr ⟨e, [g], d, _, rfl, he, ?_, ?_⟩, ?_⟩
            · rcases hg.1 with h | h <;> subst h <;> simp
            · intro c h
              rcases List.mem_cons.mp h with h | h
              · subst h; exact isDigit_iff.mp hg.2
              · exact takeWhile_digits _ c h
            · have := dropWhile_length isDigit t
              simp only [List.length_cons]; omega
          · exact ⟨.inl rfl, Nat.le_refl _⟩
      · split
        · rename_i d hd
          refine ⟨.inr ⟨e, [], d, [], rfl, he, .inl rfl, ?_⟩, by simp⟩
          intro c h
          rcases List.mem_cons.mp h with h | h
          · subst h; exact isDigit_iff.mp hd
          · cases h
        · exact ⟨.inl rfl, Nat.le_refl _⟩
      · exact ⟨.inl rfl, Nat.le_refl _⟩
    · exact ⟨.inl rfl, Nat.le_refl _⟩
  · exact ⟨.inl rfl, Nat.le_refl _⟩

theorem readUnsigned_spec {s l r : List Char} (h : readUnsigned s = some (l, r)) :
    (∃ i f e, l = i ++ f ++ e ∧ IntPart i ∧ FracPart f ∧ ExpPart e) ∧ r.length < s.length := by
  unfold readUnsigned at h
  simp only [bind, Option.bind_eq_some_iff, Prod.exists, pure, Option.some.injEq, Prod.mk.injEq] at h
  obtain ⟨i, t, hi, e1, e2⟩ := h
  obtain ⟨h1, l1⟩ := readInt_spec hi
  obtain ⟨h2, l2⟩ := readFrac_spec t
  obtain ⟨h3, l3⟩ := readExp_spec (readFrac t).2
  exact ⟨⟨_, _, _, e1.symm, h1, h2, h3⟩, by rw [← e2]; omega⟩

theorem after_length {w s r : List Char} (h : after w s = some r) : r.length ≤ s.length := by
  unfold after at h
  split at h
  · injection h with h; subst h; simp
  · cases h

theorem readNumber_spec {s l r : List Char} (h : readNumber s = some (l, r)) : IsNumber l ∧ r.length < s.length := by
  unfold readNumber at h
  split at h
  · split at h
    · rename_i h'
      injection h with h; injection h with h1 h2; subst h1 h2
      have := after_length h'
      exact ⟨.inr (.inr (.inl rfl)), by simp only [List.length_cons]; omega⟩
    · simp only [Option.map_eq_some_iff, Prod.exists, Prod.mk.injEq] at h
      obtain ⟨u, v, h, e1, e2⟩ := h
      obtain ⟨⟨i, f, x, e, hi, hf, hx⟩, hl⟩ := readUnsigned_spec h
      subst e2 e1 e
      exact ⟨.inr (.inr (.inr ⟨['-'], i, f, x, by simp, .inr rfl, hi, hf, hx⟩)), by
        simp only [List.length_cons]; omega⟩
  · simp only [Option.map_eq_some_iff, Prod.mk.injEq] at h
    obtain ⟨v, h, e1, e2⟩ := h
    subst e1 e2
    refine ⟨.inl rfl, ?_⟩
    unfold after at h
    split at h
    · injection h with h; subst h; simp; omega
    · cases h
  · simp only [Option.map_eq_some_iff, Prod.mk.injEq] at h
    obtain ⟨v, h, e1, e2⟩ := h
    subst e1 e2
    refine ⟨.inr (.inl rfl), ?_⟩
    unfold after at h
    split at h
    · injection h with h; subst h; simp; omega
    · cases h
  · obtain ⟨⟨i, f, x, e, hi, hf, hx⟩, hl⟩ := readUnsigned_spec h
    subst e
    exact ⟨.inr (.inr (.inr ⟨[], i, f, x, by simp, .inl rfl, hi, hf, hx⟩)), hl⟩

theorem readKey_length {s r : List Char} {k : String} (h : readKey s = some (k, r)) : r.length < s.length := by
  unfold readKey at h
  split at h
  · split at h
    · rename_i hs
      have l1 := readString_length hs
      split at h
      · rename_i u hu
        injection h with h; injection h with _ h; subst h
        have l2 := congrArg List.length hu
        have l3 := skipWs_length u
        have l4 := Nat.le_trans (Nat.le_of_eq l2.symm) (skipWs_length _)
        simp only [List.length_cons] at *; omega
      · cases h
    · cases h
  · cases h

/-! ### What is read is proper -/

theorem set_keys_nodup {β : Type} (d : Dict β) (k : String) (v : β) (h : (d.map Prod.fst).Nodup) :
    ((Dict.set d k v).map Prod.fst).Nodup := by
  by_cases hk : k ∈ d.map Prod.fst
  · have : (Dict.set d k v).map Prod.fst = d.map Prod.fst := by
      clear h
      induction d with
      | nil => cases hk
      | cons p d ih =>
        obtain ⟨a, b⟩ := p
        simp only [Dict.set]
        split
        · simp [*]
        · rename_i hne
          simp only [List.map_cons, List.mem_cons] at hk ⊢
          rw [ih (hk.resolve_left fun e => hne e.symm)]
    rw [this]; exact h
  · rw [set_fresh d k v hk, List.map_append, List.nodup_append]
    refine ⟨h, by simp, ?_⟩
    intro a ha b hb
    simp only [List.map_cons, List.map_nil, List.mem_singleton] at hb
    subst hb
    exact fun e => hk (e ▸ ha)

theorem set_properFields (d : Dict Json) (k : String) (v : Json) (h : ProperFields d) (hv : Proper v) :
    ProperFields (Dict.set d k v) := by
  induction d with
  | nil => simp only [Dict.set, ProperFields]; exact ⟨hv, trivial⟩
  | cons p d ih =>
    obtain ⟨a, b⟩ := p
    rw [ProperFields] at h
    simp only [Dict.set]
    split
    · rw [ProperFields]; exact ⟨hv, h.2⟩
    · rw [ProperFields]; exact ⟨h.1, ih h.2⟩

theorem dictOf_proper_aux (fs acc : List (String × Json)) (h : ProperFields fs)
    (ha : (acc.map Prod.fst).Nodup ∧ ProperFields acc) :
    ((fs.foldl (fun d p => Dict.set d p.1 p.2) acc).map Prod.fst).Nodup ∧
      ProperFields (fs.foldl (fun d p => Dict.set d p.1 p.2) acc) := by
  induction fs generalizing acc with
  | nil => exact ha
  | cons p fs ih =>
    obtain ⟨k, v⟩ := p
    rw [ProperFields] at h
    exact ih _ h.2 ⟨set_keys_nodup acc k v ha.1, set_properFields acc k v ha.2 h.1⟩

theorem dictOf_proper {fs : List (String × Json)} (h : ProperFields fs) : Proper (.obj (dictOf fs)) := by
  rw [Proper]; exact dictOf_proper_aux fs [] h ⟨by simp, by simp [ProperFields]⟩

/-- What the readers return is proper, and they consume at least one character. -/
theorem read_spec (n : Nat) :
    (∀ s j r, readValue n s = some (j, r) → Proper j ∧ r.length < s.length) ∧
    (∀ s xs r, readMore n s = some (xs, r) → ProperItems xs ∧ r.length < s.length) ∧
    (∀ s fs r, readMoreFields n s = some (fs, r) → ProperFields fs ∧ r.length < s.length) := by
  induction n with
  | zero => refine ⟨?_, ?_, ?_⟩ <;> intro s j r h <;> simp [readValue, readMore, readMoreFields] at h
  | succ n ih =>
    obtain ⟨ihv, ihm, ihf⟩ := ih
    refine ⟨?_, ?_, ?_⟩
    · intro s j r h
      unfold readValue at h
      split at h
      · simp only [Option.map_eq_some_iff, Prod.exists, Prod.mk.injEq] at h
        obtain ⟨k, t, h, e1, e2⟩ := h
        subst e1 e2
        have := readString_length h
        exact ⟨by simp [Proper], by simp only [List.length_cons]; omega⟩
      · rename_i s
        have l := skipWs_length s
        split at h
        · rename_i hs
          injection h with h; injection h with e1 e2; subst e1 e2
          rw [hs] at l
          refine ⟨by simp [Proper, ProperItems], ?_⟩
          simp only [List.length_cons] at *; omega
        · simp only [bind, Option.bind_eq_some_iff, Prod.exists, pure, Option.some.injEq, Prod.mk.injEq] at h
          obtain ⟨x, t, h1, xs, u, h2, e1, e2⟩ := h
          subst e1 e2
          have a := ihv _ _ _ h1
          have b := ihm _ _ _ h2
          refine ⟨by rw [Proper, ProperItems]; exact ⟨a.1, b.1⟩, ?_⟩
          simp only [List.length_cons]; omega
      · rename_i s
        have l := skipWs_length s
        split at h
        · rename_i hs
          injection h with h; injection h with e1 e2; subst e1 e2
          rw [hs] at l
          refine ⟨by simp [Proper, ProperFields], ?_⟩
          simp only [List.length_cons] at *; omega
        · simp only [bind, Option.bind_eq_some_iff, Prod.exists, pure, Option.some.injEq, Prod.mk.injEq] at h
          obtain ⟨k, t, h0, x, u, h1, fs, v, h2, e1, e2⟩ := h
          subst e1 e2
          have l0 := readKey_length h0
          have a := ihv _ _ _ h1
          have b := ihf _ _ _ h2
          refine ⟨dictOf_proper (by rw [ProperFields]; exact ⟨a.1, b.1⟩), ?_⟩
          simp only [List.length_cons]; omega
      · simp only [Option.map_eq_some_iff, Prod.mk.injEq] at h
        obtain ⟨t, h, e1, e2⟩ := h
        subst e1 e2
        have := after_length h
        exact ⟨by simp [Proper], by simp only [List.length_cons]; omega⟩
      · simp only [Option.map_eq_some_iff, Prod.mk.injEq] at h
        obtain ⟨t, h, e1, e2⟩ := h
        subst e1 e2
        have := after_length h
        exact ⟨by simp [Proper], by simp only [List.length_cons]; omega⟩
      · simp only [Option.map_eq_some_iff, Prod.mk.injEq] at h
        obtain ⟨t, h, e1, e2⟩ := h
        subst e1 e2
        have := after_length h
        exact ⟨by simp [Proper], by simp only [List.length_cons]; omega⟩
      · simp only [Option.map_eq_some_iff, Prod.exists, Prod.mk.injEq] at h
        obtain ⟨l, t, h, e1, e2⟩ := h
        subst e1 e2
        have := readNumber_spec h
        exact ⟨by rw [Proper]; exact this.1, this.2⟩
    · intro s xs r h
      unfold readMore at h
      have l := skipWs_length s
      split at h
      · rename_i hs
        injection h with h; injection h with e1 e2; subst e1 e2
        rw [hs] at l
        exact ⟨by simp [ProperItems], by simp only [List.length_cons] at *; omega⟩
      · rename_i t hs
        rw [hs] at l
        have l' := skipWs_length t
        simp only [bind, Option.bind_eq_some_iff, Prod.exists, pure, Option.some.injEq, Prod.mk.injEq] at h
        obtain ⟨x, t, h1, xs, u, h2, e1, e2⟩ := h
        subst e1 e2
        have a := ihv _ _ _ h1
        have b := ihm _ _ _ h2
        refine ⟨by rw [ProperItems]; exact ⟨a.1, b.1⟩, ?_⟩
        simp only [List.length_cons] at *; omega
      · cases h
    · intro s xs r h
      unfold readMoreFields at h
      have l := skipWs_length s
      split at h
      · rename_i hs
        injection h with h; injection h with e1 e2; subst e1 e2
        rw [hs] at l
        exact ⟨by simp [ProperFields], by simp only [List.length_cons] at *; omega⟩
      · rename_i t hs
        rw [hs] at l
        have l' := skipWs_length t
        simp only [bind, Option.bind_eq_some_iff, Prod.exists, pure, Option.some.injEq, Prod.mk.injEq] at h
        obtain ⟨k, t, h0, x, u, h1, fs, v, h2, e1, e2⟩ := h
        subst e1 e2
        have l0 := readKey_length h0
        have a := ihv _ _ _ h1
        have b := ihf _ _ _ h2
        refine ⟨by rw [ProperFields]; exact ⟨a.1, b.1⟩, ?_⟩
        simp only [List.length_cons] at *; omega
      · cases h

/-! ### Fuel -/

theorem bind_congr_some {β γ : Type} {x : Option β} {f g : β → Option γ} (h : ∀ b, x = some b → f b = g b) :
    x.bind f = x.bind g := by
  cases x with
  | none => rfl
  | some b => exact h b rfl

theorem readBody_fuel (n k : Nat) (s : List Char) (h1 : s.length ≤ n) (h2 : s.length ≤ k) :
    readBody n s = readBody k s := by
  induction n generalizing k s with
  | zero =>
    have : s = [] := List.length_eq_zero_iff.mp (by omega)
    subst this
    cases k with
    | zero => rfl
    | succ k => simp [readBody, readChar]
  | succ n ih =>
    cases k with
    | zero =>
      have : s = [] := List.length_eq_zero_iff.mp (by omega)
      subst this
      simp [readBody, readChar]
    | succ k =>
      unfold readBody
      split
      · rfl
      · simp only [bind]
        refine bind_congr_some fun p hp => ?_
        have := readChar_length (c := p.1) (r := p.2) hp
        rw [ih k p.2 (by omega) (by omega)]

theorem read_fuel (n : Nat) :
    (∀ k s, s.length < n → s.length < k → readValue n s = readValue k s) ∧
    (∀ k s, s.length < n → s.length < k → readMore n s = readMore k s) ∧
    (∀ k s, s.length < n → s.length < k → readMoreFields n s = readMoreFields k s) := by
  induction n with
  | zero => exact ⟨fun _ _ h => absurd h (by omega), fun _ _ h => absurd h (by omega), fun _ _ h => absurd h (by omega)⟩
  | succ n ih =>
    obtain ⟨ihv, ihm, ihf⟩ := ih
    refine ⟨?_, ?_, ?_⟩
    · intro k s h1 h2
      cases k with
      | zero => omega
      | succ k =>
        unfold readValue
        split
        · rfl
        · rename_i s
          simp only [List.length_cons] at h1 h2
          have l := skipWs_length s
          split
          · rfl
          · rw [ihv k _ (by omega) (by omega)]
            simp only [bind]
            refine bind_congr_some fun p hp => ?_
            have := ((read_spec k).1 _ p.1 p.2 hp).2
            rw [ihm k p.2 (by omega) (by omega)]
        · rename_i s
          simp only [List.length_cons] at h1 h2
          have l := skipWs_length s
          split
          · rfl
          · simp only [bind]
            refine bind_congr_some fun q hq => ?_
            have := readKey_length (k := q.1) (r := q.2) hq
            rw [ihv k q.2 (by omega) (by omega)]
            refine bind_congr_some fun p hp => ?_
            have := ((read_spec k).1 _ p.1 p.2 hp).2
            rw [ihf k p.2 (by omega) (by omega)]
        all_goals rfl
    · intro k s h1 h2
      cases k with
      | zero => omega
      | succ k =>
        unfold readMore
        have l := skipWs_length s
        split
        · rfl
        · rename_i t hs
          rw [hs] at l
          have l' := skipWs_length t
          simp only [List.length_cons] at l
          rw [ihv k _ (by omega) (by omega)]
          simp only [bind]
          refine bind_congr_some fun p hp => ?_
          have := ((read_spec k).1 _ p.1 p.2 hp).2
          rw [ihm k p.2 (by omega) (by omega)]
        · rfl
    · intro k s h1 h2
      cases k with
      | zero => omega
      | succ k =>
        unfold readMoreFields
        have l := skipWs_length s
        split
        · rfl
        · rename_i t hs
          rw [hs] at l
          have l' := skipWs_length t
          simp only [List.length_cons] at l
          simp only [bind]
          refine bind_congr_some fun q hq => ?_
          have := readKey_length (k := q.1) (r := q.2) hq
          rw [ihv k q.2 (by omega) (by omega)]
          refine bind_congr_some fun p hp => ?_
          have := ((read_spec k).1 _ p.1 p.2 hp).2
          rw [ihf k p.2 (by omega) (by omega)]
        · rfl

end PyFCM
