import Verif.Lemmas.Sort
import Verif.Lemmas.RealFn
import Verif.Lemmas.VecTop
import Verif.Lemmas.Args
import Verif.Examples
/-
C24, C25: sorting and scaling activation dictionaries.
-/
namespace PyFCM
open Arith

set_option linter.unusedSectionVars false

instance : TotalLe ℝ where
  total a b := by simpa using le_total a b
  trans a b c h1 h2 := by
    rw [real_le] at *
    exact le_trans h1 h2

instance : TotalLe ℚ where
  total a b := by
    rcases le_total a b with h | h
    · exact .inl (decide_eq_true h)
    · exact .inr (decide_eq_true h)
  trans a b c h1 h2 := decide_eq_true (le_trans (of_decide_eq_true h1) (of_decide_eq_true h2))

section
variable {α β : Type} [Arith α]

/-! ### C24 -/

/-- `dual_quick_sort` terminates without leaving the arrays; the first array ends up sorted, and both are permuted
alike. -/
theorem C24_sort [TotalLe α] {a : List α} {m : List β} (hl : a.length = m.length) :
    ∃ a' m', dualQuickSort a m = .ok (a', m') ∧ a'.Pairwise (fun x y => (x ≤? y) = true) ∧ a'.length = a.length ∧
      m'.length = m.length ∧ (a'.zip m').Perm (a.zip m) := by
  obtain ⟨a', m', e, hmix, hs⟩ := dualQuickSortAux_spec (a := a) (m := m) a.length (s := 0) (e := a.length)
    (Nat.le_refl _) (by omega) (by omega)
  refine ⟨a', m', e, ?_, hmix.len, hmix.mlen, hmix.perm⟩
  rw [List.pairwise_iff_getElem]
  intro i j hi hj hij
  exact hs i j _ _ (Nat.zero_le _) hij (by rw [← hmix.len]; exact hj) (List.getElem?_eq_getElem hi)
    (List.getElem?_eq_getElem hj)

/-- A NaN among the values (comparable to nothing) can make the loop run forever, whatever number of rounds is
allowed; the order has to be total. -/
theorem C24_nan {nan x : α} (h1 : (nan ≤? x) = false) (h2 : (x ≤? nan) = false) (p q : β) (fuel : Nat) :
    partitionLoop nan fuel [nan, x] [p, q] 1 1 = .error .diverge := by
  induction fuel with
  | zero => rfl
  | succ n ih =>
    have e1 : scanHigh [nan, x] nan 1 1 = .ok 1 := by simp [scanHigh, h1]
    have e2 : scanLow [nan, x] nan 1 (1 + 1 - 1) 1 = .ok 1 := by simp [scanLow, h2]
    unfold partitionLoop
    simp only [e1, e2, bind, Except.bind]
    exact ih

end

example : dualQuickSort ([3, 1, 2, 1, 5, -4] : List ℚ) ["a", "b", "c", "d", "e", "f"] =
    .ok ([-4, 1, 1, 2, 3, 5], ["f", "b", "d", "c", "a", "e"]) := by decide +kernel

/-! ### C25 -/

/-- `vl`, `mb` sorted and scaled: `sc` is ascending, inside [0,1], ends with 1 and keeps each value's membership. -/
structure Scaled (vl mb sc mb' : List ℝ) : Prop where
  sorted : sc.Pairwise (· ≤ ·)
  range : ∀ x ∈ sc, 0 ≤ x ∧ x ≤ 1
  top : sc.getLast? = some 1
  paired : ∃ g : ℝ → ℝ, StrictMono g ∧ (sc.zip mb').Perm ((vl.map g).zip mb)
  len : sc.length = vl.length ∧ mb'.length = mb.length

/-- The full claim. -/
def C25_full : Prop :=
  ∀ (d : Args ℝ) (vl mb : List ℝ) (p : FuzzyDesc ℝ × FuzzyDesc ℝ), d.get? "val_list" = some (.list vl) →
    d.get? "membership" = some (.list mb) → vl.length = mb.length → processActivationDict d = .ok p →
    Scaled vl mb p.2.valList p.2.membership

theorem processActivationDict_ok {α : Type} [Arith α] {d : Args α} {p : FuzzyDesc α × FuzzyDesc α}
    (h : processActivationDict d = .ok p) : ∃ a b vl mb v0 r mb', d.get? "val_list" = some a ∧ asArray a = .ok vl ∧
      d.get? "membership" = some b ∧ asArray b = .ok mb ∧ dualQuickSort vl mb = .ok (v0 :: r, mb') ∧
      p.1 = ⟨v0 :: r, mb'⟩ ∧
      p.2 = ⟨(v0 :: r).map fun v => (v + abs v0) / (abs v0 + (v0 :: r).getLastD v0), mb'⟩ := by
  unfold processActivationDict at h
  obtain ⟨a, h1, h⟩ := exc_bind_ok h
  obtain ⟨vl, h2, h⟩ := exc_bind_ok h
  obtain ⟨b, h3, h⟩ := exc_bind_ok h
  obtain ⟨mb, h4, h⟩ := exc_bind_ok h
  obtain ⟨⟨vs, ms⟩, h5, h⟩ := exc_bind_ok h
  dsimp only at h
  cases vs with
  | nil => cases h
  | cons v0 r =>
    cases h
    exact ⟨a, b, vl, mb, v0, r, ms, need_eq_ok.1 h1, h2, need_eq_ok.1 h3, h4, h5, rfl, rfl⟩

/-- Sorted and scaled as claimed, unless all values are equal and not positive (then the code divides 0 by 0). -/
theorem C25_scaled_partial {d : Args ℝ} {a b : ArgVal ℝ} {vl mb : List ℝ} {p : FuzzyDesc ℝ × FuzzyDesc ℝ}
    (ha : d.get? "val_list" = some a) (hav : asArray a = .ok vl) (hb : d.get? "membership" = some b)
    (hbv : asArray b = .ok mb) (hl : vl.length = mb.length)
    (hne : (∃ v ∈ vl, 0 < v) ∨ ∃ v ∈ vl, ∃ w ∈ vl, v < w) (h : processActivationDict d = .ok p) :
    Scaled vl mb p.2.valList p.2.membership ∧ p.1.valList.Pairwise (· ≤ ·) ∧
      (p.1.valList.zip p.1.membership).Perm (vl.zip mb) := by
  obtain ⟨a', b', vl', mb', v0, r, ms, h1, h2, h3, h4, h5, h6, h7⟩ := processActivationDict_ok h
  rw [ha] at h1; cases h1
  rw [hav] at h2; cases h2
  rw [hb] at h3; cases h3
  rw [hbv] at h4; cases h4
  obtain ⟨a1, m1, e, hs, l1, l2, hp⟩ := C24_sort (a := vl) (m := mb) hl
  rw [h5] at e
  cases e
  have hsr : (v0 :: r).Pairwise (· ≤ ·) := hs.imp fun h => by simpa using h
  have hmem : ∀ v, v ∈ vl ↔ v ∈ v0 :: r := by
    have hu : (vl.zip mb).unzip.1 = vl := by rw [List.unzip_zip hl]
    have hu' : ((v0 :: r).zip ms).unzip.1 = v0 :: r := by rw [List.unzip_zip (by omega)]
    have := hp.map Prod.fst
    rw [← List.unzip_fst, ← List.unzip_fst, hu, hu'] at this
    exact fun v => this.mem_iff.symm
  set mx := (v0 :: r).getLastD v0 with hmx
  have hmx' : mx = (v0 :: r).getLast (by simp) := by
    rw [hmx, List.getLastD_eq_getLast?, List.getLast?_eq_some_getLast (by simp)]; rfl
  have hlo : ∀ v ∈ v0 :: r, v0 ≤ v := by
    intro v hv
    rcases List.mem_cons.1 hv with rfl | hv
    · exact le_refl _
    · exact (List.pairwise_cons.1 hsr).1 v hv
  have hhi : ∀ v ∈ v0 :: r, v ≤ mx := by
    intro v hv
    rw [hmx']
    obtain ⟨i, hi, rfl⟩ := List.getElem_of_mem hv
    rw [List.getLast_eq_getElem]
    rcases Nat.lt_or_ge i ((v0 :: r).length - 1) with hlt | hge
    · exact List.pairwise_iff_getElem.1 hsr _ _ _ _ hlt
    · have : i = (v0 :: r).length - 1 := by omega
      subst this; exact le_refl _
  have hv0mx : v0 ≤ mx := hlo mx (by rw [hmx']; exact List.getLast_mem _)
  have hden : 0 < |v0| + mx := by
    rcases hne with ⟨v, hv, hpos⟩ | ⟨v, hv, w, hw, hlt⟩
    · have := hhi v ((hmem v).1 hv)
      have := abs_nonneg v0
      linarith
    · have h1 := hlo v ((hmem v).1 hv)
      have h2 := hhi w ((hmem w).1 hw)
      have := neg_abs_le v0
      linarith
  have hg : StrictMono fun v : ℝ => (v + |v0|) / (|v0| + mx) := by
    intro x y hxy
    exact div_lt_div_of_pos_right (by linarith) hden
  have hsc : p.2.valList = (v0 :: r).map fun v => (v + |v0|) / (|v0| + mx) := by rw [h7]; rfl
  have hmb : p.2.membership = ms := by rw [h7]
  refine ⟨⟨?_, ?_, ?_, ?_, ?_⟩, ?_, ?_⟩
  · rw [hsc]
    exact List.pairwise_map.2 (hsr.imp fun h => hg.monotone h)
  · rw [hsc]
    intro x hx
    obtain ⟨v, hv, rfl⟩ := List.mem_map.1 hx
    have h1 := hlo v hv
    have h2 := hhi v hv
    have := neg_abs_le v0
    constructor
    · exact div_nonneg (by linarith) hden.le
    · exact (div_le_one hden).2 (by linarith)
  · rw [hsc, List.getLast?_map, List.getLast?_eq_some_getLast (by simp : v0 :: r ≠ []), ← hmx', Option.map_some,
      add_comm mx, div_self hden.ne']
  · refine ⟨_, hg, ?_⟩
    rw [hsc, hmb, List.zip_map_left, List.zip_map_left]
    exact hp.map _
  · rw [hsc, hmb, List.length_map]
    exact ⟨l1, l2⟩
  · rw [h6]; exact hsr
  · rw [h6]; exact hp

/-- A successful `add_concept` of a fuzzy type with an activation dictionary stores both descriptions. -/
theorem addConcept_fuzzy {α : Type} [Arith α] {m m' : FCM α} {name t : String} {args : ConceptArgs α} {d : Args α}
    (hty : args.type = some t) (hft : t = TYPE_FUZZY ∨ t = TYPE_REGRESOR) (hd : args.activationDict = some d)
    (h : FCM.addConcept name args m = (.ok (), m')) :
    ∃ n p, m'.topology.get? name = some n ∧ processActivationDict d = .ok p ∧ n.fuzzyAct = some p.1 ∧
      n.fn = some ⟨.fuzzy, "fuzzy", p.2.toArgs⟩ := by
  unfold FCM.addConcept at h
  dsimp only at h
  rcases hb : buildNode m.default args (freshNode (args.isActive.getD m.default.active)) with ⟨r, node⟩
  rw [hb] at h
  cases r with
  | error e => cases h
  | ok u =>
    cases h
    unfold buildNode at hb
    obtain ⟨_, s1, h1, g1⟩ := bind_okP hb
    obtain ⟨_, s2, h2, g2⟩ := bind_okP g1
    obtain ⟨adict, s3, h3, g3⟩ := bind_okP g2
    obtain ⟨f, custom, vect, hch, rfl⟩ := buildRest_ok g3
    have hbt : buildType m.default args = t := by
      unfold buildType
      rw [hty]
      rcases hft with rfl | rfl <;> rfl
    have hfz : isFuzzyType t = true := by rcases hft with rfl | rfl <;> rfl
    unfold buildFuzzy at h3
    rw [hbt, if_pos hfz, hd] at h3
    obtain ⟨-, p, hp, rfl, hfa, -⟩ := storeFuzzy_ok h3
    refine ⟨_, p, Dict.get?_set_self _ _ _, hp, hfa, ?_⟩
    rw [(hch.dict _ rfl).1]

/-- Such an `add_concept` raises nothing. -/
theorem addConcept_fuzzy_ok {α : Type} [Arith α] [TotalLe α] {name t : String} {args : ConceptArgs α} {d : Args α}
    {a b : ArgVal α} {vl mb : List α} (m : FCM α) (hty : args.type = some t)
    (hft : t = TYPE_FUZZY ∨ t = TYPE_REGRESOR) (hd : args.activationDict = some d)
    (hex : ∀ e, args.excitation = some e → (Excitation.getByName e).isSome)
    (ha : d.get? "val_list" = some a) (hav : asArray a = .ok vl) (hb : d.get? "membership" = some b)
    (hbv : asArray b = .ok mb) (hl : vl.length = mb.length) (hne : vl ≠ []) :
    ∃ m', FCM.addConcept name args m = (.ok (), m') := by
  have hbt : buildType m.default args = t := by
    unfold buildType
    rw [hty]
    rcases hft with rfl | rfl <;> rfl
  have hfz : isFuzzyType t = true := by rcases hft with rfl | rfl <;> rfl
  have hp : ∃ p, processActivationDict d = .ok p := by
    obtain ⟨a1, m1, e, -, l1, -, -⟩ := C24_sort (a := vl) (m := mb) hl
    cases a1 with
    | nil => exact absurd (List.length_eq_zero_iff.1 l1.symm) hne
    | cons v r =>
      simp only [processActivationDict, ha, hb, need, hav, hbv, e, bind, Except.bind, pure, Except.pure]
      exact ⟨_, rfl⟩
  obtain ⟨p, hp⟩ := hp
  have hex' : ∃ n1, buildExec m.default args (freshNode (args.isActive.getD m.default.active)) = (.ok (), n1) := by
    unfold buildExec
    cases he : args.excitation with
    | none => exact ⟨_, rfl⟩
    | some e =>
      obtain ⟨f, hf⟩ := Option.isSome_iff_exists.1 (hex e he)
      simp only [hf]
      exact ⟨_, rfl⟩
  obtain ⟨n1, h1⟩ := hex'
  have hb : ∃ n', buildNode m.default args (freshNode (args.isActive.getD m.default.active)) = (.ok (), n') := by
    have hv : processFunctionArgs p.2.toArgs = .ok (p.2.membership ++ p.2.valList) := by
      simp [processFunctionArgs, FuzzyDesc.toArgs, Dict.keys, sort_vm, concatArgs, Dict.get?, need, argValues, bind,
        Except.bind, pure, Except.pure]
    simp only [buildNode, bind, PyM.bind', h1, hbt, buildFuzzy, hfz, if_true, hd, storeFuzzy, hp, PyM.lift, PyM.modify,
      pure, PyM.pure', buildRest, buildFn, hv]
    exact ⟨_, rfl⟩
  obtain ⟨n', hb⟩ := hb
  simp only [FCM.addConcept, hb]
  exact ⟨_, rfl⟩

/-- What `add_concept(name, 'FUZZY', activation_dict=d)` (or `'REGRESOR'`) stores: the sorted description for reading
initial values, and the scaled one as arguments of the activation function. -/
theorem C25_stored_partial (m : FCM ℝ) {name t : String} {args : ConceptArgs ℝ} {d : Args ℝ} {a b : ArgVal ℝ}
    {vl mb : List ℝ} (hty : args.type = some t) (hft : t = TYPE_FUZZY ∨ t = TYPE_REGRESOR)
    (hd : args.activationDict = some d) (hex : ∀ e, args.excitation = some e → (Excitation.getByName e).isSome)
    (ha : d.get? "val_list" = some a) (hav : asArray a = .ok vl) (hb : d.get? "membership" = some b)
    (hbv : asArray b = .ok mb) (hl : vl.length = mb.length)
    (hne : (∃ v ∈ vl, 0 < v) ∨ ∃ v ∈ vl, ∃ w ∈ vl, v < w) :
    ∃ m' n so sc mb', FCM.addConcept name args m = (.ok (), m') ∧ m'.topology.get? name = some n ∧
      n.fuzzyAct = some ⟨so, mb'⟩ ∧
      n.fn = some ⟨.fuzzy, "fuzzy", [("val_list", .arr sc), ("membership", .arr mb')]⟩ ∧
      so.Pairwise (· ≤ ·) ∧ (so.zip mb').Perm (vl.zip mb) ∧ Scaled vl mb sc mb' := by
  have hv : vl ≠ [] := by
    rintro rfl
    rcases hne with ⟨v, hv, -⟩ | ⟨v, hv, -⟩ <;> cases hv
  obtain ⟨m', h⟩ := addConcept_fuzzy_ok (name := name) m hty hft hd hex ha hav hb hbv hl hv
  obtain ⟨n, p, h1, h2, h3, h4⟩ := addConcept_fuzzy hty hft hd h
  have hm : p.2.membership = p.1.membership := by
    obtain ⟨_, _, _, _, _, _, _, -, -, -, -, -, e1, e2⟩ := processActivationDict_ok h2
    rw [e1, e2]
  obtain ⟨hs, hp, hq⟩ := C25_scaled_partial ha hav hb hbv hl hne h2
  exact ⟨m', n, p.1.valList, p.2.valList, p.1.membership, h, h1, h3, by rw [h4, ← hm]; rfl, hp, hq,
    by rw [← hm]; exact hs⟩

/-- A constant non-positive list is not scaled into [0,1] with top 1: the code divides 0 by 0 (numpy: NaN; the carrier ℝ
has 0/0 = 0). -/
theorem C25_counterexample : ¬ C25_full := by
  intro h
  have hp : processActivationDict (α := ℝ) [("val_list", .list [0]), ("membership", .list [1])] =
      .ok (⟨[0], [1]⟩, ⟨[(0 + |0|) / (|0| + 0)], [1]⟩) := rfl
  have := (h _ [0] [1] _ rfl rfl rfl hp).top
  simp at this

namespace Ex

def fuzzyDict : Args ℝ := [("membership", .list [1, 0, 1]), ("val_list", .list [2, -3, 1])]

end Ex

/-- Unsorted values with a negative minimum, as `add_concept` receives them. -/
example (m : FCM ℝ) := C25_stored_partial m (name := "c")
  (args := { type := some TYPE_FUZZY, activationDict := some Ex.fuzzyDict }) rfl (.inl rfl) rfl (fun _ h => nomatch h)
  rfl rfl rfl rfl rfl (.inl ⟨2, by simp, by norm_num⟩)

/-- The same over ℚ, computed: values shifted by 3 and divided by 5. -/
example : processActivationDict (α := ℚ) [("membership", .list [1, 0, 1]), ("val_list", .list [2, -3, 1])] =
    .ok (⟨[-3, 1, 2], [0, 1, 1]⟩, ⟨[0, 4 / 5, 1], [0, 1, 1]⟩) := by decide +kernel

end PyFCM
