import Verif.Props.Sort
import Verif.Props.Success
import Verif.Lemmas.Twin
import Verif.Lemmas.History
import Verif.Props.Json
/-
C110: which calls of the interface are accepted (return) and which are rejected (raise).
-/
namespace PyFCM

/-! ### Specification: the accepted names and values, spelled out -/
namespace Spec
variable {α : Type}

/-- The excitation functions a call may name. -/
def KnownExcitation (e : String) : Prop := e = "KOSKO" ∨ e = "PAPAGEORGIUS"
/-- The decision functions a call may name. -/
def KnownDecision (f : String) : Prop := f = "LAST" ∨ f = "MEAN" ∨ f = "EXITED"
/-- The activation functions a call may name. -/
def KnownActivation (f : String) : Prop :=
  f ∈ ["biestate", "threestate", "saturation", "tan_hip", "sigmoid", "sigmoid_hip", "fuzzy", "gceq", "lceq", "relm"]
/-- The types read with a table of memberships. -/
def Graded (t : String) : Prop :=
  t = "node type for fuzzy treatment of continuous values" ∨ t = "node type for regression problems"
/-- The types a call may name. -/
def KnownType (t : String) : Prop :=
  t = "default node type" ∨ t = "node type for classification problems" ∨ Graded t ∨
    t = "node type for multivalues fields" ∨ t = "node type for multivalues fields in decision nodes"

/-- No value of the dictionary is a text. -/
def Numbers (d : Args α) : Prop := ∀ k s, d.get? k ≠ some (.str s)
/-- The entry `k` of the dictionary is the array or list `xs`. -/
def Entry (d : Args α) (k : String) (xs : List α) : Prop := d.get? k = some (.arr xs) ∨ d.get? k = some (.list xs)
/-- The dictionary holds a table: some values, and memberships. -/
def HasTable (d : Args α) : Prop := ∃ vl mb, Entry d "val_list" vl ∧ Entry d "membership" mb ∧ vl ≠ []
/-- Values and memberships, where both are given, are equally many (elsewhere the compiled sort reads outside). -/
def Even (a : ConceptArgs α) : Prop :=
  ∀ d vl mb, a.activationDict = some d → Entry d "val_list" vl → Entry d "membership" mb → vl.length = mb.length

open Classical in
/-- The type of a concept added with the type argument `t` while the default type is `dflt`. -/
noncomputable def typeOf (dflt : String) : Option String → String
  | some t => if KnownType t then t else dflt
  | none => dflt

/-- What `add_concept` asks of its arguments (and of the default concept). -/
structure NewAccepted (dflt : DefaultConcept α) (a : ConceptArgs α) : Prop where
  excitation : ∀ e, a.excitation = some e → KnownExcitation e
  table : Graded (typeOf dflt.type a.type) → ∀ d, a.activationDict = some d → HasTable d
  inherited : Graded (typeOf dflt.type a.type) → a.activationDict = none → dflt.type = typeOf dflt.type a.type →
    dflt.fuzzyAct ≠ none
  plain : ¬ Graded (typeOf dflt.type a.type) → ∀ d, a.activationDict = some d → Numbers d
  named : a.activationDict = none → ∀ f, a.activation = some f → KnownActivation f ∧ Numbers a.kwargs
  unnamed : a.activationDict = none → a.activation = none → Numbers dflt.fn.args

/-- What `set_concept_properties` asks of its arguments (and of the map's activation function). -/
structure ChangeAccepted (mapArgs : Args α) (a : ConceptArgs α) : Prop where
  excitation : ∀ e, a.excitation = some e → KnownExcitation e
  type : ∀ t, a.type = some t → KnownType t
  table : ∀ t d, a.type = some t → Graded t → a.activationDict = some d → HasTable d
  plain : (∀ t, a.type = some t → ¬ Graded t) → ∀ d, a.activationDict = some d → Numbers d
  named : a.activationDict = none → ∀ f, a.activation = some f → KnownActivation f ∧ Numbers a.kwargs
  unnamed : a.activationDict = none → a.activation = none → Numbers mapArgs

/-- What `set_default_concept_properties` asks of its arguments. -/
structure DefaultAccepted (a : ConceptArgs α) : Prop where
  excitation : ∃ e, a.excitation = some e ∧ KnownExcitation e
  type : ∃ t, a.type = some t ∧ KnownType t
  table : ∀ t d, a.type = some t → Graded t → a.activationDict = some d → HasTable d
  fuzzy : a.type = some "node type for fuzzy treatment of continuous values" → a.activationDict ≠ none
  named : a.activationDict = none → ∀ f, a.activation = some f → KnownActivation f

/-- What one concept of a document must look like for `from_json`; `mapFn`, `mapArgs` are the map's activation function
and its arguments. -/
structure ConceptLoads (mapFn : String) (mapArgs : Args α) (c : ConceptDesc α) : Prop where
  type : c.type ≠ none
  excitation : ∀ e, c.exitationFunction = some e → KnownExcitation e
  dict : ∀ d, c.activationDict = some d → Numbers d
  named : c.activationDict = none → ∀ f, c.customFunction = some f →
    KnownActivation f ∧ ∀ k, c.customFunctionArgs = some k → Numbers k
  unnamed : c.activationDict = none → c.customFunction = none → Numbers mapArgs
  /-- an initial value is only accepted by a concept whose function is not the fuzzy one -/
  value : c.activation ≠ none → c.activationDict = none ∧ c.customFunction.getD mapFn ≠ "fuzzy"

/-- What a document must look like for `from_json`. -/
structure Loads (d : MapDesc α) : Prop where
  maxIter : d.maxIter ≠ none
  decision : ∃ f, d.decisionFunction = some f ∧ KnownDecision f
  memory : d.memoryInfluence ≠ none
  activation : ∃ f, d.activationFunction = some f ∧ KnownActivation f
  concepts : ∃ cs, d.concepts = some cs ∧
    ∀ c ∈ cs, ConceptLoads (d.activationFunction.getD "") (d.activationFunctionArgs.getD []) c
  relations : d.relations ≠ none

/-- The slope of a concept with this activation function can be fitted, `total` being its incoming weights. -/
def Fittable (fname : String) (total fit : ℝ) : Prop :=
  (fname = "sigmoid" → fit ≠ 0 ∧ total ≠ 0) ∧ (fname = "sigmoid_hip" → fit ≠ -1 ∧ total ≠ 0)

end Spec

open Arith Spec

variable {α : Type} [Arith α]

/-! ### The names -/

theorem excitation_known {e : String} : (∃ f, Excitation.getByName e = some f) ↔ KnownExcitation e := by
  unfold Excitation.getByName KnownExcitation
  split
  · simp_all
  · split <;> simp_all

theorem decision_known {e : String} : (∃ f, Decision.getByName e = some f) ↔ KnownDecision e := by
  unfold Decision.getByName KnownDecision
  split
  · simp_all
  · split
    · simp_all
    · split <;> simp_all

theorem activation_known {e : String} : (∃ f, Activation.getFunctionByName e = some f) ↔ KnownActivation e := by
  unfold Activation.getFunctionByName KnownActivation
  repeat' split
  all_goals simp_all

theorem type_known {t : String} : isValidType t = true ↔ KnownType t := by
  simp [isValidType, KnownType, Graded, TYPE_SIMPLE, TYPE_DECISION, TYPE_FUZZY, TYPE_REGRESOR, TYPE_MUTI,
    TYPE_MUTI_DESC, or_assoc]

theorem continuous_iff {t : String} : isFuzzyType t = true ↔ Graded t := by
  simp [isFuzzyType, Graded, TYPE_FUZZY, TYPE_REGRESOR]

omit [Arith α] in
theorem buildType_eq (dflt : DefaultConcept α) (a : ConceptArgs α) : buildType dflt a = typeOf dflt.type a.type := by
  unfold buildType typeOf
  cases a.type with
  | none => rfl
  | some t =>
    by_cases h : KnownType t
    · simp [h, type_known.2 h]
    · have : isValidType t = false := by
        cases hv : isValidType t with
        | false => rfl
        | true => exact absurd (type_known.1 hv) h
      simp [h, this]

/-! ### The dictionaries -/

omit [Arith α] in
theorem argValues_ok {v : ArgVal α} : (∃ xs, argValues v = .ok xs) ↔ ∀ s, v ≠ .str s := by
  cases v <;> simp [argValues]

theorem mem_insertName {x y : String} {l : List String} : y ∈ insertName x l ↔ y = x ∨ y ∈ l := by
  induction l with
  | nil => simp [insertName]
  | cons z zs ih =>
    unfold insertName
    split
    · simp
    · simp only [List.mem_cons, ih]
      constructor
      · rintro (h | h | h) <;> simp [h]
      · rintro (h | h | h) <;> simp [h]

theorem mem_sortNames {y : String} {l : List String} : y ∈ sortNames l ↔ y ∈ l := by
  induction l with
  | nil => simp [sortNames]
  | cons x xs ih => rw [sortNames, mem_insertName, ih, List.mem_cons]

omit [Arith α] in
theorem concatArgs_ok {d : Args α} : ∀ {ns : List String}, (∀ n ∈ ns, n ∈ d.keys) →
    ((∃ xs, concatArgs d ns = .ok xs) ↔ ∀ n ∈ ns, ∀ s, d.get? n ≠ some (.str s))
  | [], _ => by simp [concatArgs]
  | n :: ns, hk => by
    obtain ⟨v, hv⟩ := Dict.exists_get?_of_mem (hk n (by simp))
    have ih := concatArgs_ok (d := d) (ns := ns) fun n hn => hk n (by simp [hn])
    have hval := argValues_ok (v := v)
    constructor
    · rintro ⟨xs, h⟩
      unfold concatArgs at h
      obtain ⟨v', h1, h⟩ := exc_bind_ok h
      obtain ⟨ys, h2, h⟩ := exc_bind_ok h
      obtain ⟨zs, h3, h⟩ := exc_bind_ok h
      have e := need_eq_ok.1 h1
      rw [hv] at e
      cases e
      intro k hk s
      rcases List.mem_cons.1 hk with rfl | hk
      · rw [hv]
        intro e
        exact hval.1 ⟨_, h2⟩ s (Option.some.inj e)
      · exact ih.1 ⟨_, h3⟩ k hk s
    · intro h
      obtain ⟨ys, h2⟩ := hval.2 fun s e => h n (by simp) s (by rw [hv, e])
      obtain ⟨zs, h3⟩ := ih.2 fun k hk s => h k (by simp [hk]) s
      exact ⟨ys ++ zs, by simp [concatArgs, hv, need, h2, h3, bind, Except.bind, pure, Except.pure]⟩

omit [Arith α] in
theorem functionArgs_ok {d : Args α} : (∃ xs, processFunctionArgs d = .ok xs) ↔ Numbers d := by
  unfold processFunctionArgs
  rw [concatArgs_ok fun n hn => mem_sortNames.1 hn]
  constructor
  · intro h k s e
    exact h k (mem_sortNames.2 (Dict.mem_keys_of_get? e)) s e
  · intro h n _ s
    exact h n s

omit [Arith α] in
theorem asArray_ok {v : ArgVal α} {xs : List α} : asArray v = .ok xs ↔ v = .arr xs ∨ v = .list xs := by
  cases v <;> simp [asArray]

theorem activationDict_ok [TotalLe α] {d : Args α}
    (he : ∀ vl mb, Entry d "val_list" vl → Entry d "membership" mb → vl.length = mb.length) :
    (∃ p, processActivationDict d = .ok p) ↔ HasTable d := by
  constructor
  · rintro ⟨p, h⟩
    obtain ⟨a, b, vl, mb, v0, r, mb', h1, h2, h3, h4, h5, -, -⟩ := processActivationDict_ok h
    have e1 : Entry d "val_list" vl := by rcases asArray_ok.1 h2 with rfl | rfl <;> simp [Entry, h1]
    have e2 : Entry d "membership" mb := by rcases asArray_ok.1 h4 with rfl | rfl <;> simp [Entry, h3]
    refine ⟨vl, mb, e1, e2, ?_⟩
    rintro rfl
    obtain ⟨a1, m1, e, -, l1, -, -⟩ := C24_sort (he _ _ e1 e2)
    rw [e] at h5
    cases h5
    simp at l1
  · rintro ⟨vl, mb, e1, e2, hne⟩
    have hl := he _ _ e1 e2
    obtain ⟨a1, m1, e, -, l1, -, -⟩ := C24_sort hl
    obtain ⟨v, hv, hva⟩ : ∃ v, d.get? "val_list" = some v ∧ asArray v = .ok vl := by
      rcases e1 with h | h <;> exact ⟨_, h, rfl⟩
    obtain ⟨w, hw, hwa⟩ : ∃ v, d.get? "membership" = some v ∧ asArray v = .ok mb := by
      rcases e2 with h | h <;> exact ⟨_, h, rfl⟩
    cases a1 with
    | nil => exact absurd (List.length_eq_zero_iff.1 l1.symm) hne
    | cons v r =>
      simp only [processActivationDict, hv, hw, need, hva, hwa, e, bind, Except.bind, pure, Except.pure]
      exact ⟨_, rfl⟩

/-! ### The default concept -/

/-- A fuzzy description of the default concept comes with its bounds. -/
def Bounded (d : DefaultConcept α) : Prop := d.fuzzyAct ≠ none → d.fuzzyMin ≠ none ∧ d.fuzzyMax ≠ none

theorem updateDefault_bounded (b : Bool) (f : FnInfo α) (a : ConceptArgs α) : Pres Bounded (updateDefault b f a) := by
  unfold updateDefault
  refine Pres.bind ?_ fun _ => Pres.bind ?_ fun _ => Pres.bind ?_ fun _ => Pres.bind ?_ fun _ =>
    Pres.bind (Pres.modify fun _ h => h) fun _ => ?_
  · unfold defaultActive
    split
    · exact Pres.modify fun _ h => h
    · exact Pres.pure _
  · unfold defaultExec
    split
    · split
      · exact Pres.modify fun _ h => h
      · exact Pres.raise _
    · exact Pres.raise _
  · unfold defaultType
    split
    · split
      · exact Pres.modify fun _ h => h
      · exact Pres.raise _
    · exact Pres.raise _
  · unfold defaultFuzzy
    split
    · split
      · rename_i d _
        intro n hn
        simp only [PyM.run_bind, PyM.lift]
        cases hp : processActivationDict d with
        | error e => exact hn
        | ok p =>
          obtain ⟨a, b, vl, mb, v0, r, mb', h1, h2, h3, h4, h5, e1, e2⟩ := processActivationDict_ok hp
          intro _
          show p.1.fmin ≠ none ∧ p.1.fmax ≠ none
          rw [e1]
          simp [FuzzyDesc.fmin, FuzzyDesc.fmax]
      · exact Pres.raise _
    · exact Pres.pure _
  · unfold defaultFn
    split
    · exact Pres.modify fun _ h => h
    · split
      · split
        · exact Pres.modify fun _ h => h
        · exact Pres.raise _
      · exact Pres.modify fun _ h => h

omit [Arith α] in
theorem bounded_bare {m m' : FCM α} (h : m'.bare = m.bare) (hb : Bounded m.default) : Bounded m'.default := by
  have : m'.default = m.default := (congrArg FCM.default h :)
  rw [this]
  exact hb

theorem Op.bounded (op : Op α) : Pres (fun m : FCM α => Bounded m.default) op.run := by
  intro m hm
  cases op
  case addConcept => exact bounded_bare (addConcept_bare m _ _ m rfl) hm
  case setConceptProperties c a =>
    simp only [Op.run, FCM.setConceptProperties]
    split
    · exact hm
    · exact hm
  case setDefaultConceptProperties a => exact updateDefault_bounded _ _ _ m.default hm
  case setMapDecisionFunction f =>
    simp only [Op.run, FCM.setMapDecisionFunction]
    split <;> exact hm
  case setMapActivationFunction f k =>
    have key : ∀ g c, Pres (fun m : FCM α => Bounded m.default) (applyMapFn g c) := by
      intro g c m hm
      unfold applyMapFn
      repeat' split
      all_goals exact hm
    have all : Pres (fun m : FCM α => Bounded m.default) (FCM.setMapActivationFunction f k) := by
      unfold FCM.setMapActivationFunction
      refine Pres.bind (Pres.modify fun _ h => h) fun _ => ?_
      split
      · exact Pres.raise _
      · refine Pres.bind (Pres.modify fun _ h => h) fun _ => Pres.bind ?_ fun _ => Pres.forEach fun c _ => key _ c
        intro m hm
        exact hm
    exact all m hm
  case addRelation => exact bounded_bare (addRelation_bare m _ _ _ m rfl) hm
  case initConcept => exact bounded_bare (initConcept_bare m _ _ _ m rfl) hm
  case resetExecution => exact bounded_bare (reset_bare m m rfl) hm
  case clearExecution => exact bounded_bare (clear_bare m m rfl) hm
  case clearAll => exact bounded_bare (clearAll_bare m m rfl) hm
  case runInference => exact bounded_bare (run_bare m _ m rfl) hm
  all_goals exact hm

theorem Reachable.bounded {m : FCM α} (h : Reachable m) : Bounded m.default := by
  obtain ⟨_, _, _, _, _, _, _, _, m0, ops, hnew, rfl⟩ := h
  have h0 : Bounded m0.default := by
    unfold FCM.new at hnew
    split at hnew
    · cases hnew
    · split at hnew
      · cases hnew
      · cases hnew
        intro h
        exact absurd rfl h
  clear hnew
  induction ops generalizing m0 with
  | nil => exact h0
  | cons op ops ih => exact ih _ (op.bounded m0 h0)

/-! ### Programs over a node -/

/-- The program returns when started in `s`. -/
def Returns {σ β : Type} (x : PyM σ β) (s : σ) : Prop := ∃ b s', x s = (.ok b, s')

theorem returns_bind {σ β γ : Type} {x : PyM σ β} {f : β → PyM σ γ} {s : σ} :
    Returns (x >>= f) s ↔ ∃ b s1, x s = (.ok b, s1) ∧ Returns (f b) s1 := by
  constructor
  · rintro ⟨c, s', h⟩
    obtain ⟨b, s1, h1, h2⟩ := bind_okP h
    exact ⟨b, s1, h1, c, s', h2⟩
  · rintro ⟨b, s1, h1, c, s', h2⟩
    exact ⟨c, s', by rw [PyM.run_bind, h1]; exact h2⟩

omit [Arith α] in
theorem buildRest_returns {b : Bool} {f : FnInfo α} {a : ConceptArgs α} {ad : Option (Args α)} {n : Node α} :
    Returns (buildRest b f a ad) n ↔ (∀ d, ad = some d → Numbers d) ∧
      (ad = none → ∀ g, a.activation = some g → KnownActivation g ∧ Numbers a.kwargs) ∧
      (ad = none → a.activation = none → Numbers f.args) := by
  have key : ∀ n : Node α, Returns (buildFn f a ad) n ↔ (∀ d, ad = some d → Numbers d) ∧
      (ad = none → ∀ g, a.activation = some g → KnownActivation g ∧ Numbers a.kwargs) ∧
      (ad = none → a.activation = none → Numbers f.args) := by
    intro n
    have lift : ∀ (d : Args α) (n : Node α), Returns (PyM.lift (processFunctionArgs d)) n ↔ Numbers d := by
      intro d n
      rw [← functionArgs_ok]
      constructor
      · rintro ⟨v, n', h⟩
        exact ⟨v, (Prod.mk.inj h).1⟩
      · rintro ⟨v, h⟩
        exact ⟨v, n, by rw [PyM.lift, h]⟩
    unfold buildFn
    cases ad with
    | some d =>
      rw [returns_bind]
      constructor
      · rintro ⟨_, n1, -, h⟩
        have := (lift d n1).1 h
        refine ⟨?_, by simp, by simp⟩
        rintro d' ⟨⟩
        exact this
      · rintro ⟨h, -, -⟩
        exact ⟨(), _, rfl, (lift d _).2 (h d rfl)⟩
    | none =>
      cases ha : a.activation with
      | some g =>
        cases hg : Activation.getFunctionByName g with
        | some fn =>
          have hk := activation_known.1 ⟨fn, hg⟩
          dsimp only
          rw [hg]
          dsimp only
          rw [returns_bind]
          constructor
          · rintro ⟨_, n1, -, h⟩
            have := (lift _ n1).1 h
            refine ⟨by simp, ?_, by simp⟩
            rintro - g' ⟨⟩
            exact ⟨hk, this⟩
          · rintro ⟨-, h, -⟩
            exact ⟨(), _, rfl, (lift _ _).2 (h rfl g rfl).2⟩
        | none =>
          dsimp only
          rw [hg]
          constructor
          · rintro ⟨_, _, h⟩
            cases h
          · rintro ⟨-, h, -⟩
            obtain ⟨fn, hfn⟩ := activation_known.2 (h rfl g rfl).1
            rw [hg] at hfn
            cases hfn
      | none =>
        rw [returns_bind]
        constructor
        · rintro ⟨_, n1, -, h⟩
          obtain ⟨v, n2, h2, -⟩ := returns_bind.1 h
          have := (lift f.args n1).1 ⟨v, n2, h2⟩
          exact ⟨by simp, by simp, fun _ _ => this⟩
        · rintro ⟨-, -, h⟩
          refine ⟨(), _, rfl, returns_bind.2 ?_⟩
          obtain ⟨v, n2, h2⟩ := (lift f.args _).2 (h rfl rfl)
          exact ⟨v, n2, h2, v, _, rfl⟩
  unfold buildRest
  rw [returns_bind]
  constructor
  · rintro ⟨_, n1, -, h⟩
    obtain ⟨v, n2, h2, -⟩ := returns_bind.1 h
    exact (key n1).1 ⟨v, n2, h2⟩
  · intro h
    refine ⟨(), _, rfl, returns_bind.2 ?_⟩
    obtain ⟨v, n2, h2⟩ := (key _).2 h
    exact ⟨v, n2, h2, (), _, rfl⟩

theorem storeFuzzy_returns {d : Args α} {n : Node α} :
    Returns (storeFuzzy d) n ↔ ∃ p, processActivationDict d = .ok p := by
  unfold storeFuzzy
  rw [returns_bind]
  constructor
  · rintro ⟨p, n1, h, -⟩
    exact ⟨p, (Prod.mk.inj h).1⟩
  · rintro ⟨p, h⟩
    exact ⟨p, n, by rw [PyM.lift, h], _, _, rfl⟩

/-- What a processed table is made of is numbers. -/
theorem storeFuzzy_numbers {d : Args α} {n n' : Node α} {r : Option (Args α)}
    (h : storeFuzzy d n = (.ok r, n')) : ∃ d', r = some d' ∧ Numbers d' := by
  unfold storeFuzzy at h
  obtain ⟨p, n1, h1, h⟩ := bind_okP h
  obtain ⟨_, n2, h2, h⟩ := bind_okP h
  cases h
  refine ⟨_, rfl, ?_⟩
  intro k s
  simp only [FuzzyDesc.toArgs, Dict.get?]
  repeat' split
  all_goals simp

/-! ### The calls -/

/-- `add_concept` returns exactly when its arguments are acceptable; nothing else of the map matters but the default
concept. -/
theorem C110_add_concept [TotalLe α] {m : FCM α} (hm : Reachable m) (c : String) {a : ConceptArgs α} (he : Even a) :
    (∃ m', FCM.addConcept c a m = (.ok (), m')) ↔ NewAccepted m.default a := by
  have h0 : (∃ m', FCM.addConcept c a m = (.ok (), m')) ↔
      Returns (buildNode m.default a) (freshNode (a.isActive.getD m.default.active)) := by
    unfold FCM.addConcept
    dsimp only
    rcases hb : buildNode m.default a (freshNode (a.isActive.getD m.default.active)) with ⟨_ | ⟨⟩, n⟩
    · constructor
      · rintro ⟨m', h⟩
        cases h
      · rintro ⟨b, n', h⟩
        rw [hb] at h
        cases h
    · exact ⟨fun _ => ⟨(), n, hb⟩, fun _ => ⟨_, rfl⟩⟩
  rw [h0]
  generalize (freshNode (a.isActive.getD m.default.active) : Node α) = n0
  have hbd := hm.bounded
  generalize m.default = dflt at *
  unfold buildNode
  rw [returns_bind, buildType_eq]
  generalize hty : typeOf dflt.type a.type = ty
  have hexec : ∀ n, (∃ n1, buildExec dflt a n = (.ok (), n1)) ↔ ∀ e, a.excitation = some e → KnownExcitation e := by
    intro n
    unfold buildExec
    cases ha : a.excitation with
    | none => simp [PyM.modify]
    | some e =>
      cases hx : Excitation.getByName e with
      | some f =>
        have := excitation_known.1 ⟨f, hx⟩
        simp [hx, PyM.modify, this]
      | none =>
        have : ¬ KnownExcitation e := fun h => by
          obtain ⟨f, hf⟩ := excitation_known.2 h
          rw [hx] at hf
          cases hf
        simp [hx, PyM.raise, this]
  have hrest : ∀ n, Returns (do
        let adict ← buildFuzzy dflt a ty
        buildRest (a.useMemory.getD dflt.useMem) dflt.fn a adict) n ↔
      (Graded ty → ∀ d, a.activationDict = some d → HasTable d) ∧
      (Graded ty → a.activationDict = none → dflt.type = ty → dflt.fuzzyAct ≠ none) ∧
      (¬ Graded ty → ∀ d, a.activationDict = some d → Numbers d) ∧
      (a.activationDict = none → ∀ f, a.activation = some f → KnownActivation f ∧ Numbers a.kwargs) ∧
      (a.activationDict = none → a.activation = none → Numbers dflt.fn.args) := by
    intro n
    rw [returns_bind]
    simp only [buildRest_returns]
    unfold buildFuzzy
    by_cases hg : Graded ty
    · rw [if_pos (continuous_iff.2 hg)]
      cases ha : a.activationDict with
      | some d =>
        have htab := activationDict_ok (d := d) fun vl mb h1 h2 => he d vl mb ha h1 h2
        constructor
        · rintro ⟨r, n1, h1, -, -, -⟩
          have ht := htab.1 (storeFuzzy_returns.1 ⟨r, n1, h1⟩)
          refine ⟨?_, by simp, fun h => absurd hg h, by simp, by simp⟩
          rintro - d' ⟨⟩
          exact ht
        · rintro ⟨h, -, -, -, -⟩
          obtain ⟨r, n1, h1⟩ := storeFuzzy_returns (n := n).2 (htab.2 (h hg d rfl))
          obtain ⟨d', rfl, hd'⟩ := storeFuzzy_numbers h1
          refine ⟨_, n1, h1, ?_, by simp, by simp⟩
          rintro d'' ⟨⟩
          exact hd'
      | none =>
        dsimp only
        by_cases hd : dflt.type = ty
        · rw [if_pos hd]
          have hcopy : (∃ r n1, copyFuzzy dflt n = (.ok r, n1)) ↔ dflt.fuzzyAct ≠ none := by
            unfold copyFuzzy
            cases hf : dflt.fuzzyAct with
            | none =>
              simp only [PyM.run_bind, PyM.lift, need]
              simp
            | some fa =>
              obtain ⟨h1, h2⟩ := hbd (by simp [hf])
              obtain ⟨x, hx⟩ := Option.ne_none_iff_exists'.1 h1
              obtain ⟨y, hy⟩ := Option.ne_none_iff_exists'.1 h2
              simp only [PyM.run_bind, PyM.lift, need, hx, hy, PyM.run_modify]
              simp only [ne_eq, reduceCtorEq, not_false_eq_true, iff_true]
              exact ⟨_, _, rfl⟩
          have hnone : ∀ r n1, copyFuzzy dflt n = (.ok r, n1) → r = none := by
            intro r n1 h
            unfold copyFuzzy at h
            obtain ⟨_, _, _, h⟩ := bind_okP h
            obtain ⟨_, _, _, h⟩ := bind_okP h
            obtain ⟨_, _, _, h⟩ := bind_okP h
            obtain ⟨_, _, _, h⟩ := bind_okP h
            obtain ⟨_, _, _, h⟩ := bind_okP h
            cases h
            rfl
          constructor
          · rintro ⟨r, n1, h1, -, h3, h4⟩
            have := hnone r n1 h1
            subst this
            exact ⟨by simp, fun _ _ _ => hcopy.1 ⟨_, _, h1⟩, by simp, h3, h4⟩
          · rintro ⟨-, h, -, h3, h4⟩
            obtain ⟨r, n1, h1⟩ := hcopy.2 (h hg rfl hd)
            have := hnone r n1 h1
            subst this
            exact ⟨_, n1, h1, by simp, h3, h4⟩
        · rw [if_neg hd]
          constructor
          · rintro ⟨r, n1, h1, -, h3, h4⟩
            cases h1
            exact ⟨by simp, fun _ _ h => absurd h hd, by simp, h3, h4⟩
          · rintro ⟨-, -, -, h3, h4⟩
            exact ⟨none, n, rfl, by simp, h3, h4⟩
    · have hf : isFuzzyType ty ≠ true := fun h => hg (continuous_iff.1 h)
      rw [if_neg hf]
      constructor
      · rintro ⟨r, n1, h1, h2, h3, h4⟩
        cases h1
        exact ⟨fun h => absurd h hg, fun h => absurd h hg, fun _ => h2, h3, h4⟩
      · rintro ⟨-, -, h2, h3, h4⟩
        exact ⟨_, n, rfl, h2 hg, h3, h4⟩
  constructor
  · rintro ⟨⟨⟩, n1, h1, h⟩
    obtain ⟨⟨⟩, n2, h2, h⟩ := returns_bind.1 h
    obtain ⟨r1, r2, r3, r4, r5⟩ := (hrest n2).1 h
    subst hty
    exact ⟨(hexec n0).1 ⟨n1, h1⟩, r1, r2, r3, r4, r5⟩
  · intro h
    obtain ⟨n1, h1⟩ := (hexec n0).2 h.excitation
    refine ⟨(), n1, h1, returns_bind.2 ⟨(), _, rfl, ?_⟩⟩
    subst hty
    exact (hrest _).2 ⟨h.table, h.inherited, h.plain, h.named, h.unnamed⟩

/-- `set_concept_properties` returns exactly when the concept exists and the arguments are acceptable; nothing else of
the map matters but the arguments of its activation function. -/
theorem C110_set_concept [TotalLe α] (m : FCM α) (c : String) {a : ConceptArgs α} (he : Even a) :
    (∃ m', FCM.setConceptProperties c a m = (.ok (), m')) ↔
      c ∈ m.topology.keys ∧ ChangeAccepted m.mapFn.args a := by
  unfold FCM.setConceptProperties
  cases hn : m.topology.get? c with
  | none =>
    constructor
    · rintro ⟨m', h⟩
      cases h
    · rintro ⟨h, -⟩
      obtain ⟨n, hn'⟩ := Dict.exists_get?_of_mem h
      rw [hn] at hn'
      cases hn'
  | some n0 =>
    have hmem : c ∈ m.topology.keys := Dict.mem_keys_of_get? hn
    have h0 : (∃ m', (let (r, node') := updateNode m.memInfluence m.mapFn a n0
        (r, { m with prepared := false, topology := m.topology.set c node' })) = ((.ok () : Except Err Unit), m')) ↔
        Returns (updateNode m.memInfluence m.mapFn a) n0 := by
      rcases hb : updateNode m.memInfluence m.mapFn a n0 with ⟨_ | ⟨⟩, n⟩
      · constructor
        · rintro ⟨m', h⟩
          cases h
        · rintro ⟨b, n', h⟩
          rw [hb] at h
          cases h
      · exact ⟨fun _ => ⟨(), n, hb⟩, fun _ => ⟨_, rfl⟩⟩
    refine h0.trans ?_
    unfold updateNode
    have hact : ∀ n, ∃ n1, updateActive a n = (.ok (), n1) := by
      intro n
      unfold updateActive
      cases a.isActive <;> exact ⟨_, rfl⟩
    have hexec : ∀ n, (∃ n1, updateExec a n = (.ok (), n1)) ↔ ∀ e, a.excitation = some e → KnownExcitation e := by
      intro n
      unfold updateExec
      cases ha : a.excitation with
      | none => simp [pure, PyM.pure']
      | some e =>
        cases hx : Excitation.getByName e with
        | some f =>
          have := excitation_known.1 ⟨f, hx⟩
          simp [hx, PyM.modify, this]
        | none =>
          have : ¬ KnownExcitation e := fun h => by
            obtain ⟨f, hf⟩ := excitation_known.2 h
            rw [hx] at hf
            cases hf
          simp [hx, PyM.raise, this]
    have htype : ∀ n, (∃ n1, updateType a n = (.ok (), n1)) ↔ ∀ t, a.type = some t → KnownType t := by
      intro n
      unfold updateType
      cases ha : a.type with
      | none => simp [pure, PyM.pure']
      | some t =>
        by_cases h : KnownType t
        · simp [type_known.2 h, h, PyM.modify]
        · have hv : ¬ isValidType t = true := fun hv => h (type_known.1 hv)
          simp [hv, h, PyM.raise]
    have hrest : ∀ n, Returns (do
          let adict ← updateFuzzy a
          buildRest (a.useMemory.getD m.memInfluence) m.mapFn a adict) n ↔
        (∀ t d, a.type = some t → Graded t → a.activationDict = some d → HasTable d) ∧
        ((∀ t, a.type = some t → ¬ Graded t) → ∀ d, a.activationDict = some d → Numbers d) ∧
        (a.activationDict = none → ∀ f, a.activation = some f → KnownActivation f ∧ Numbers a.kwargs) ∧
        (a.activationDict = none → a.activation = none → Numbers m.mapFn.args) := by
      intro n
      rw [returns_bind]
      simp only [buildRest_returns]
      unfold updateFuzzy
      cases ha : a.activationDict with
      | none =>
        constructor
        · rintro ⟨r, n1, h1, -, h3, h4⟩
          cases h1
          exact ⟨by simp, by simp, h3, h4⟩
        · rintro ⟨-, -, h3, h4⟩
          exact ⟨none, n, rfl, by simp, h3, h4⟩
      | some d =>
        have htab := activationDict_ok (d := d) fun vl mb h1 h2 => he d vl mb ha h1 h2
        dsimp only
        by_cases hg : ∃ t, a.type = some t ∧ Graded t
        · obtain ⟨t, ht, hg⟩ := hg
          rw [ht, if_pos (by simpa using continuous_iff.2 hg)]
          constructor
          · rintro ⟨r, n1, h1, -, -, -⟩
            have ht' := htab.1 (storeFuzzy_returns.1 ⟨r, n1, h1⟩)
            refine ⟨?_, fun h => absurd hg (h t rfl), by simp, by simp⟩
            rintro - d' - - ⟨⟩
            exact ht'
          · rintro ⟨h, -, -, -⟩
            obtain ⟨r, n1, h1⟩ := storeFuzzy_returns (n := n).2 (htab.2 (h t d rfl hg rfl))
            obtain ⟨d', rfl, hd'⟩ := storeFuzzy_numbers h1
            refine ⟨_, n1, h1, ?_, by simp, by simp⟩
            rintro d'' ⟨⟩
            exact hd'
        · have hf : ¬ (a.type.map isFuzzyType).getD false = true := by
            cases ht : a.type with
            | none => simp
            | some t =>
              intro h
              exact hg ⟨t, ht, continuous_iff.1 (by simpa using h)⟩
          rw [if_neg hf]
          constructor
          · rintro ⟨r, n1, h1, h2, h3, h4⟩
            cases h1
            exact ⟨fun t d ht h => absurd ⟨t, ht, h⟩ hg, fun _ => h2, h3, h4⟩
          · rintro ⟨-, h2, h3, h4⟩
            exact ⟨_, n, rfl, h2 fun t ht h => hg ⟨t, ht, h⟩, h3, h4⟩
    rw [returns_bind]
    constructor
    · rintro ⟨⟨⟩, n1, -, h⟩
      obtain ⟨⟨⟩, n2, h2, h⟩ := returns_bind.1 h
      obtain ⟨⟨⟩, n3, h3, h⟩ := returns_bind.1 h
      obtain ⟨r1, r2, r3, r4⟩ := (hrest n3).1 h
      exact ⟨hmem, (hexec n1).1 ⟨n2, h2⟩, (htype n2).1 ⟨n3, h3⟩, r1, r2, r3, r4⟩
    · rintro ⟨-, h⟩
      obtain ⟨n1, h1⟩ := hact n0
      obtain ⟨n2, h2⟩ := (hexec n1).2 h.excitation
      obtain ⟨n3, h3⟩ := (htype n2).2 h.type
      exact ⟨(), n1, h1, returns_bind.2 ⟨(), n2, h2, returns_bind.2 ⟨(), n3, h3,
        (hrest n3).2 ⟨h.table, h.plain, h.named, h.unnamed⟩⟩⟩⟩

/-- `set_default_concept_properties` returns exactly when its arguments are acceptable; nothing of the map matters. -/
theorem C110_set_default [TotalLe α] (m : FCM α) {a : ConceptArgs α} (he : Even a) :
    (∃ m', FCM.setDefaultConceptProperties a m = (.ok (), m')) ↔ DefaultAccepted a := by
  have h0 : (∃ m', FCM.setDefaultConceptProperties a m = (.ok (), m')) ↔
      Returns (updateDefault m.memInfluence m.mapFn a) m.default := by
    unfold FCM.setDefaultConceptProperties
    rcases hb : updateDefault m.memInfluence m.mapFn a m.default with ⟨_ | ⟨⟩, n⟩
    · constructor
      · rintro ⟨m', h⟩
        cases h
      · rintro ⟨b, n', h⟩
        rw [hb] at h
        cases h
    · exact ⟨fun _ => ⟨(), n, hb⟩, fun _ => ⟨_, rfl⟩⟩
  rw [h0]
  have hact : ∀ n, ∃ n1, defaultActive a n = (.ok (), n1) := by
    intro n
    unfold defaultActive
    cases a.isActive <;> exact ⟨_, rfl⟩
  have hexec : ∀ n, (∃ n1, defaultExec a n = (.ok (), n1)) ↔ ∃ e, a.excitation = some e ∧ KnownExcitation e := by
    intro n
    unfold defaultExec
    cases ha : a.excitation with
    | none => simp [PyM.raise]
    | some e =>
      cases hx : Excitation.getByName e with
      | some f =>
        have := excitation_known.1 ⟨f, hx⟩
        simp [hx, PyM.modify, this]
      | none =>
        have : ¬ KnownExcitation e := fun h => by
          obtain ⟨f, hf⟩ := excitation_known.2 h
          rw [hx] at hf
          cases hf
        simp [hx, PyM.raise, this]
  have htype : ∀ n, (∃ n1, defaultType a n = (.ok (), n1)) ↔ ∃ t, a.type = some t ∧ KnownType t := by
    intro n
    unfold defaultType
    cases ha : a.type with
    | none => simp [PyM.raise]
    | some t =>
      by_cases h : KnownType t
      · simp [type_known.2 h, h, PyM.modify]
      · have hv : ¬ isValidType t = true := fun hv => h (type_known.1 hv)
        simp [hv, h, PyM.raise]
  have hfn : ∀ ad n, Returns (defaultFn m.mapFn a ad) n ↔
      (ad = none → ∀ f, a.activation = some f → KnownActivation f) := by
    intro ad n
    unfold defaultFn
    cases ad with
    | some d => exact ⟨fun _ h => (by cases h), fun _ => ⟨_, _, rfl⟩⟩
    | none =>
      cases ha : a.activation with
      | none => exact ⟨fun _ _ f h => (by cases h), fun _ => ⟨_, _, rfl⟩⟩
      | some g =>
        dsimp only
        cases hg : Activation.getFunctionByName g with
        | some fn =>
          have := activation_known.1 ⟨fn, hg⟩
          refine ⟨?_, fun _ => ⟨_, _, rfl⟩⟩
          rintro - - f ⟨⟩
          exact this
        | none =>
          constructor
          · rintro ⟨_, _, h⟩
            cases h
          · intro h
            obtain ⟨fn, hfn⟩ := activation_known.2 (h rfl g rfl)
            rw [hg] at hfn
            cases hfn
  have hfz : ∀ n, (∃ r n1, defaultFuzzy a n = (.ok r, n1)) ↔
      (∀ t d, a.type = some t → Graded t → a.activationDict = some d → HasTable d) ∧
      (a.type = some "node type for fuzzy treatment of continuous values" → a.activationDict ≠ none) := by
    intro n
    unfold defaultFuzzy
    cases ha : a.activationDict with
    | none =>
      by_cases hf : a.type = some TYPE_FUZZY
      · rw [if_pos (.inl hf)]
        constructor
        · rintro ⟨_, _, h⟩
          cases h
        · rintro ⟨-, h⟩
          exact absurd rfl (h hf)
      · rw [if_neg (by simp [hf])]
        exact ⟨fun _ => ⟨by simp, fun h => absurd h hf⟩, fun _ => ⟨_, _, rfl⟩⟩
    | some d =>
      have htab := activationDict_ok (d := d) fun vl mb h1 h2 => he d vl mb ha h1 h2
      by_cases hg : ∃ t, a.type = some t ∧ Graded t
      · obtain ⟨t, ht, hg⟩ := hg
        rw [if_pos (by rw [ht]; rcases hg with rfl | rfl <;> simp [TYPE_FUZZY, TYPE_REGRESOR])]
        constructor
        · rintro ⟨r, n1, h⟩
          obtain ⟨p, n2, hp, -⟩ := bind_okP h
          have := htab.1 ⟨p, (Prod.mk.inj hp).1⟩
          refine ⟨?_, by simp⟩
          rintro - d' - - ⟨⟩
          exact this
        · rintro ⟨h, -⟩
          obtain ⟨p, hp⟩ := htab.2 (h t d ht hg rfl)
          exact ⟨some p.2.toArgs, _, by simp only [PyM.run_bind, PyM.lift, hp, PyM.run_modify]; rfl⟩
      · rw [if_neg]
        · exact ⟨fun _ => ⟨fun t d ht h => absurd ⟨t, ht, h⟩ hg, by simp⟩, fun _ => ⟨_, _, rfl⟩⟩
        · rintro (h | ⟨h, -⟩)
          · exact hg ⟨_, h, .inl rfl⟩
          · exact hg ⟨_, h, .inr rfl⟩
  have hnone : ∀ r n n1, defaultFuzzy a n = (.ok r, n1) → (r = none ↔ a.activationDict = none) := by
    intro r n n1 h
    unfold defaultFuzzy at h
    split at h
    · cases hd : a.activationDict with
      | some d =>
        rw [hd] at h
        obtain ⟨p, n2, hp, h⟩ := bind_okP h
        obtain ⟨_, _, _, h⟩ := bind_okP h
        cases h
        simp
      | none =>
        rw [hd] at h
        cases h
    · cases h
      rfl
  unfold updateDefault
  rw [returns_bind]
  constructor
  · rintro ⟨⟨⟩, n1, -, h⟩
    obtain ⟨⟨⟩, n2, h2, h⟩ := returns_bind.1 h
    obtain ⟨⟨⟩, n3, h3, h⟩ := returns_bind.1 h
    obtain ⟨r, n4, h4, h⟩ := returns_bind.1 h
    obtain ⟨⟨⟩, n5, h5, h⟩ := returns_bind.1 h
    obtain ⟨r1, r2⟩ := (hfz n3).1 ⟨r, n4, h4⟩
    refine ⟨(hexec n1).1 ⟨n2, h2⟩, (htype n2).1 ⟨n3, h3⟩, r1, r2, fun hd => (hfn r n5).1 h ((hnone r _ _ h4).2 hd)⟩
  · intro h
    obtain ⟨n1, h1⟩ := hact m.default
    obtain ⟨n2, h2⟩ := (hexec n1).2 h.excitation
    obtain ⟨n3, h3⟩ := (htype n2).2 h.type
    obtain ⟨r, n4, h4⟩ := (hfz n3).2 ⟨h.table, h.fuzzy⟩
    exact ⟨(), n1, h1, returns_bind.2 ⟨(), n2, h2, returns_bind.2 ⟨(), n3, h3, returns_bind.2 ⟨r, n4, h4,
      returns_bind.2 ⟨(), _, rfl, (hfn r _).2 fun hr => h.named ((hnone r _ _ h4).1 hr)⟩⟩⟩⟩⟩

omit [Arith α] in
/-- `set_map_decision_function` returns exactly for a known name. -/
theorem C110_decision (m : FCM α) (f : String) :
    (∃ m', FCM.setMapDecisionFunction f m = (.ok (), m')) ↔ KnownDecision f := by
  rw [← decision_known]
  unfold FCM.setMapDecisionFunction
  cases Decision.getByName f with
  | none => simp
  | some g => simp

/-- `set_map_activation_function` returns exactly for a known name with numbers as arguments; the arguments are not even
looked at when no concept uses the map's function. -/
theorem C110_activation {m : FCM α} (hm : CleanReachable m) (f : String) (k : Args α) :
    (∃ m', FCM.setMapActivationFunction f k m = (.ok (), m')) ↔ KnownActivation f ∧
      ((∃ c n, m.topology.get? c = some n ∧ n.useMapFunc = some true) → Numbers k) := by
  unfold FCM.setMapActivationFunction
  simp only [PyM.run_bind, PyM.run_modify]
  cases hf : Activation.getFunctionByName f with
  | none =>
    constructor
    · rintro ⟨m', h⟩
      cases h
    · rintro ⟨h, -⟩
      obtain ⟨g, hg⟩ := activation_known.2 h
      rw [hf] at hg
      cases hg
  | some g =>
    have hk := activation_known.1 ⟨g, hf⟩
    simp only [PyM.run_bind, PyM.run_modify, PyM.run_get]
    have hgood := hm.clean.good
    generalize hM : ({ m with prepared := false, mapFn := ⟨g, f, k⟩ } : FCM α) = M
    have ht : M.topology = m.topology := by rw [← hM]
    have loop : ∀ (cs : List String) (M : FCM α), (∀ c ∈ cs, ∃ n, M.topology.get? c = some n) →
        (∀ c n, M.topology.get? c = some n → n.useMapFunc ≠ none) →
        ((∃ M', PyM.forEach cs (applyMapFn ⟨g, f, k⟩) M = (.ok (), M')) ↔
          ((∃ c ∈ cs, ∃ n, M.topology.get? c = some n ∧ n.useMapFunc = some true) → Numbers k)) := by
      intro cs
      induction cs with
      | nil =>
        intro M _ _
        exact ⟨fun _ ⟨c, hc, _⟩ => (by cases hc), fun _ => ⟨M, rfl⟩⟩
      | cons c cs ih =>
        intro M hcs hflag
        obtain ⟨n, hn⟩ := hcs c (by simp)
        rw [PyM.forEach]
        dsimp only
        cases hu : n.useMapFunc with
        | none => exact absurd hu (hflag c n hn)
        | some b =>
          cases b with
          | false =>
            have hstep : applyMapFn ⟨g, f, k⟩ c M = (.ok (), M) := by simp only [applyMapFn, hn, hu]
            simp only [hstep]
            rw [ih M (fun c hc => hcs c (by simp [hc])) hflag]
            constructor
            · rintro h ⟨c', hc', n', hn', hu'⟩
              rcases List.mem_cons.1 hc' with rfl | hc'
              · rw [hn] at hn'
                cases hn'
                rw [hu] at hu'
                cases hu'
              · exact h ⟨c', hc', n', hn', hu'⟩
            · rintro h ⟨c', hc', n', hn', hu'⟩
              exact h ⟨c', by simp [hc'], n', hn', hu'⟩
          | true =>
            cases hp : processFunctionArgs k with
            | error e =>
              have hstep : (applyMapFn ⟨g, f, k⟩ c M).1 = .error e := by simp only [applyMapFn, hn, hu, hp]
              rcases hs : applyMapFn ⟨g, f, k⟩ c M with ⟨r, M1⟩
              rw [hs] at hstep
              simp only at hstep
              subst hstep
              constructor
              · rintro ⟨M', h⟩
                cases h
              · intro h
                obtain ⟨v, hv⟩ := functionArgs_ok.2 (h ⟨c, by simp, n, hn, hu⟩)
                rw [hp] at hv
                cases hv
            | ok v =>
              have hstep : applyMapFn ⟨g, f, k⟩ c M = (.ok (), { M with
                  topology := M.topology.set c { n with fn := some ⟨g, f, k⟩, argsVect := some v } }) := by
                simp only [applyMapFn, hn, hu, hp]
              have hnum := functionArgs_ok.1 ⟨v, hp⟩
              simp only [hstep]
              rw [ih]
              · exact ⟨fun _ _ => hnum, fun _ _ => hnum⟩
              · intro c' hc'
                obtain ⟨n', hn'⟩ := hcs c' (by simp [hc'])
                rw [Dict.get?_set]
                split
                · exact ⟨_, rfl⟩
                · exact ⟨_, hn'⟩
              · intro c' n' hn'
                rw [Dict.get?_set] at hn'
                split at hn'
                · cases hn'
                  simp [hu]
                · exact hflag c' n' hn'
    rw [loop m.topology.keys M (fun c hc => by rw [ht]; exact Dict.exists_get?_of_mem hc) (by
      intro c n hn
      rw [ht] at hn
      have := (hgood c n hn).full.useMapFunc
      intro h
      rw [h] at this
      cases this), ht]
    constructor
    · intro h
      exact ⟨hk, fun ⟨c, n, hn, hu⟩ => h ⟨c, Dict.mem_keys_of_get? hn, n, hn, hu⟩⟩
    · rintro ⟨-, h⟩ ⟨c, -, n, hn, hu⟩
      exact h ⟨c, n, hn, hu⟩

/-- The constructor returns exactly for known decision and activation functions. -/
theorem C110_new (maxIt extra : Int) (stab : Bool) (diff : α) (dec : String) (mem : Bool) (act : String)
    (k : Args α) : (∃ m, FCM.new maxIt extra stab diff dec mem act k = .ok m) ↔
      KnownDecision dec ∧ KnownActivation act := by
  rw [← decision_known, ← activation_known]
  unfold FCM.new
  cases Decision.getByName dec with
  | none => simp
  | some f =>
    cases Activation.getFunctionByName act with
    | none => simp
    | some g => simp

/-- `reset_execution`, `clear_execution` and `clear_all` always return (as long as no earlier call raised). -/
theorem C110_clear {m : FCM α} (hm : CleanReachable m) : (∃ m', FCM.resetExecution m = (.ok (), m')) ∧
    (∃ m', FCM.clearExecution m = (.ok (), m')) ∧ ∃ m', FCM.clearAll m = (.ok (), m') := by
  obtain ⟨m1, h1⟩ := reset_success hm.clean.exe
  obtain ⟨m2, h2, -⟩ := clear_spec hm.clean.inv
  refine ⟨⟨m1, h1⟩, ⟨m2, h2⟩, ?_⟩
  unfold FCM.clearAll
  rw [PyM.run_bind, h1]
  exact ⟨_, rfl⟩

/-- `init_concept` of a concept whose function is not the fuzzy one returns exactly when the concept exists or its
presence is not required; with the fuzzy function it needs a stored table besides. -/
theorem C110_init {m : FCM ℝ} (hm : CleanReachable m) (c : String) (v : ℝ) (required : Bool)
    (ht : ∀ n d, m.topology.get? c = some n → n.fuzzyAct = some d →
      d.valList.Pairwise (· ≤ ·) ∧ d.membership.length = d.valList.length ∧ 2 ≤ d.valList.length) :
    (∃ m', FCM.initConcept c v required m = (.ok (), m')) ↔
      (c ∉ m.topology.keys → required = false) ∧
      ∀ n f, m.topology.get? c = some n → n.fn = some f → f.name = "fuzzy" → n.fuzzyAct ≠ none := by
  unfold FCM.initConcept
  cases hn : m.topology.get? c with
  | none =>
    have hk : c ∉ m.topology.keys := fun h => by
      obtain ⟨n, hn'⟩ := Dict.exists_get?_of_mem h
      rw [hn] at hn'
      cases hn'
    cases required <;> simp [hk]
  | some n =>
    have hk := Dict.mem_keys_of_get? hn
    have hfn := (hm.clean.good c n hn).full.fn
    cases hf : n.fn with
    | none => rw [hf] at hfn; cases hfn
    | some f =>
      by_cases hz : f.name = "fuzzy"
      · simp only [hf, if_pos hz]
        cases ha : n.fuzzyAct with
        | none =>
          constructor
          · rintro ⟨m', h⟩
            cases h
          · rintro ⟨-, h⟩
            exact absurd ha (h n f rfl hf hz)
        | some d =>
          obtain ⟨h1, h2, h3⟩ := ht n d hn ha
          obtain ⟨r, hr⟩ := fuzzySet_total (value := v) h1 h2 h3
          simp only [hr]
          refine ⟨fun _ => ⟨fun h => absurd hk h, ?_⟩, fun _ => ⟨_, rfl⟩⟩
          rintro _ g ⟨⟩ hg _
          rw [ha]
          simp
      · simp only [hf, if_neg hz]
        refine ⟨fun _ => ⟨fun h => absurd hk h, ?_⟩, fun _ => ⟨_, rfl⟩⟩
        rintro _ g ⟨⟩ hg hg'
        rw [hf] at hg
        cases hg
        exact absurd hg' hz

theorem slopeFor_ok {f : String} {sum fit : ℝ} : (∃ r, slopeFor f sum fit = .ok r) ↔ Fittable f sum fit := by
  unfold slopeFor Fittable
  by_cases h1 : f = "sigmoid"
  · subst h1
    rw [if_pos rfl]
    unfold sigmoidLambda
    by_cases hf : fit = 0
    · subst hf
      rw [pdiv_real_zero]
      simp [bind, Except.bind, Except.map]
    · rw [pdiv_real hf]
      simp only [bind, Except.bind]
      by_cases hs : sum = 0
      · subst hs
        have : Arith.abs (0 : ℝ) = 0 := abs_zero
        rw [this, pdiv_real_zero]
        simp [Except.map]
      · have : Arith.abs sum ≠ 0 := abs_ne_zero.2 hs
        rw [pdiv_real this]
        simp [Except.map, pure, Except.pure, hs, hf]
  · rw [if_neg h1]
    by_cases h2 : f = "sigmoid_hip"
    · subst h2
      rw [if_pos rfl]
      unfold sigmoidHipLambda
      by_cases hf : fit = -1
      · subst hf
        have : (lit 1 + (-1) : ℝ) = 0 := by simp [lit]
        rw [this, pdiv_real_zero]
        simp [bind, Except.bind, Except.map]
      · have : (lit 1 + fit : ℝ) ≠ 0 := by
          intro h
          apply hf
          have h' : (1 : ℝ) + fit = 0 := by simpa [lit] using h
          linarith
        rw [pdiv_real this]
        simp only [bind, Except.bind]
        by_cases hs : sum = 0
        · subst hs
          have : Arith.abs (0 : ℝ) = 0 := abs_zero
          rw [this, pdiv_real_zero]
          simp [Except.map]
        · have : Arith.abs sum ≠ 0 := abs_ne_zero.2 hs
          rw [pdiv_real this]
          simp [Except.map, pure, Except.pure, hs, hf]
    · rw [if_neg h2]
      split <;> simp [h1, h2]

/-- `add_relation` returns exactly when there is nothing to fit (no inclination is set, or an end is unknown) or the
slope of the destiny concept can be fitted. -/
theorem C110_relation {m : FCM ℝ} (hm : CleanReachable m) (o d : String) (w : ℝ) :
    (∃ m', FCM.addRelation o d w m = (.ok (), m')) ↔
      ∀ fit n f, m.fitInclination = some fit → o ∈ m.topology.keys → m.topology.get? d = some n → n.fn = some f →
        Fittable f.name (n.actvSum + w) fit := by
  unfold FCM.addRelation
  by_cases hk : o ∈ m.topology.keys ∧ d ∈ m.topology.keys
  · obtain ⟨ho, hd⟩ := hk
    obtain ⟨n, hn⟩ := Dict.exists_get?_of_mem hd
    rw [if_pos (by simp [Dict.has_iff, ho, hd])]
    dsimp only
    have hget : ∃ as, Dict.get? ((m.topology.modify o fun n => { n with arcs := n.arcs ++ [(d, w)] }).modify d
        fun n => { n with actvSum := n.actvSum + w }) d = some { n with arcs := as, actvSum := n.actvSum + w } := by
      rw [Dict.get?_modify, Dict.get?_modify, hn]
      by_cases h : o = d
      · exact ⟨_, by simp [h]; rfl⟩
      · exact ⟨_, by simp [h]; rfl⟩
    generalize (m.topology.modify o fun n => { n with arcs := n.arcs ++ [(d, w)] }).modify d
        (fun n => { n with actvSum := n.actvSum + w }) = t at *
    obtain ⟨as, hget⟩ := hget
    have hfn := (hm.clean.good d n hn).full.fn
    cases hf : n.fn with
    | none => rw [hf] at hfn; cases hfn
    | some f =>
      cases hfit : m.fitInclination with
      | none => simp
      | some fit =>
        have hs := slopeFor_ok (f := f.name) (sum := n.actvSum + w) (fit := fit)
        have key : (∃ n', fitSlope fit { n with arcs := as, actvSum := n.actvSum + w } = .ok n') ↔
            Fittable f.name (n.actvSum + w) fit := by
          rw [← hs]
          unfold fitSlope
          simp only [hf]
          cases slopeFor f.name (n.actvSum + w) fit with
          | error e => simp
          | ok r => cases r <;> simp
        simp only [hget]
        constructor
        · rintro ⟨m', h⟩ fit' n' f' e1 - e2 e3
          cases e1
          rw [hn] at e2
          cases e2
          rw [hf] at e3
          cases e3
          refine key.1 ?_
          cases hc : fitSlope fit { n with arcs := as, actvSum := n.actvSum + w } with
          | error e => rw [hc] at h; cases h
          | ok n' => exact ⟨n', rfl⟩
        · intro h
          obtain ⟨n', hn'⟩ := key.2 (h fit n f rfl ho hn hf)
          simp only [hn']
          exact ⟨_, rfl⟩
  · rw [if_neg (by simpa [Dict.has_iff, and_comm] using hk)]
    refine ⟨fun _ fit n f _ ho hn _ => absurd ⟨ho, Dict.mem_keys_of_get? hn⟩ hk, fun _ => ⟨_, rfl⟩⟩

/-! ### Queries -/

theorem pyIdxBack_ok {β : Type} {xs : List β} {k : Nat} (hk : 0 < k) : (∃ x, pyIdxBack xs k = .ok x) ↔ k ≤ xs.length := by
  unfold pyIdxBack pyIdx
  by_cases h : k ≤ xs.length
  · rw [if_pos h, List.getElem?_eq_getElem (by omega : xs.length - k < xs.length)]
    exact ⟨fun _ => h, fun _ => ⟨_, rfl⟩⟩
  · rw [if_neg h]
    exact ⟨fun ⟨x, hx⟩ => (by cases hx), fun h' => absurd h' h⟩

theorem stableLoop_ok {diff : α} {d : Dict (List α)} :
    (∃ b, stableLoop diff d = .ok b) ↔ ∀ p ∈ d, 2 ≤ p.2.length := by
  induction d with
  | nil => simp [stableLoop]
  | cons p d ih =>
    obtain ⟨c, xs⟩ := p
    constructor
    · rintro ⟨b, h⟩
      unfold stableLoop at h
      obtain ⟨x, h1, h⟩ := exc_bind_ok h
      obtain ⟨y, h2, h⟩ := exc_bind_ok h
      obtain ⟨r, h3, h⟩ := exc_bind_ok h
      intro q hq
      rcases List.mem_cons.1 hq with rfl | hq
      · exact (pyIdxBack_ok (by omega)).1 ⟨y, h2⟩
      · exact ih.1 ⟨r, h3⟩ q hq
    · intro h
      have hl : 2 ≤ xs.length := h (c, xs) (by simp)
      obtain ⟨x, h1⟩ := (pyIdxBack_ok (xs := xs) (k := 1) (by omega)).2 (by omega)
      obtain ⟨y, h2⟩ := (pyIdxBack_ok (xs := xs) (k := 2) (by omega)).2 hl
      obtain ⟨r, h3⟩ := ih.2 fun q hq => h q (by simp [hq])
      simp only [stableLoop, h1, h2, h3, bind, Except.bind, pure, Except.pure]
      exact ⟨_, rfl⟩

/-- `is_stable` returns exactly when no step has been made yet or every concept has a record of two values. -/
theorem C110_stable {m : FCM α} (hm : CleanReachable m) : (∃ b, m.isStable = .ok b) ↔
    (m.iterations ≤ 1 ∨ ∀ c ∈ m.topology.keys, ∃ xs, m.execution.get? c = some xs ∧ 2 ≤ xs.length) := by
  unfold FCM.isStable
  by_cases h : m.iterations > 1
  · rw [if_pos h, stableLoop_ok]
    constructor
    · intro hall
      right
      intro c hc
      obtain ⟨x, xs, hx⟩ := hm.clean.exe c hc
      exact ⟨_, hx, hall _ (Dict.get?_mem hx)⟩
    · rintro (h' | hall)
      · omega
      · rintro ⟨c, xs⟩ hp
        have hx := Dict.get?_of_mem hm.clean.inv.xnd hp
        obtain ⟨ys, hy, hl⟩ := hall c (hm.clean.inv.sub c (Dict.mem_keys_of_get? hx))
        rw [hx] at hy
        cases hy
        exact hl
  · rw [if_neg h]
    exact ⟨fun _ => .inl (by omega), fun _ => ⟨_, rfl⟩⟩

/-- `get_final_state` always returns. -/
theorem C110_final {m : FCM α} (hm : CleanReachable m) (t : String) (names : List String) :
    ∃ d, m.getFinalState t names = .ok d := by
  have key : ∀ cs : List String, (∀ c ∈ cs, c ∈ m.topology.keys) → ∃ d, finalStateLoop m t names cs = .ok d := by
    intro cs
    induction cs with
    | nil => exact fun _ => ⟨[], rfl⟩
    | cons c cs ih =>
      intro h
      obtain ⟨d, hd⟩ := ih fun c hc => h c (by simp [hc])
      obtain ⟨n, hn⟩ := Dict.exists_get?_of_mem (h c (by simp))
      obtain ⟨ty, hty⟩ := Option.isSome_iff_exists.1 (hm.clean.good c n hn).full.type
      unfold finalStateLoop
      simp only [hn, hty, need, hd, bind, Except.bind, pure, Except.pure]
      repeat' split
      all_goals exact ⟨_, rfl⟩
  exact key _ hm.clean.inv.sub

/-! ### Documents -/

omit [Arith α] in
theorem accepts_iff {mapFn : FnInfo α} {c : ConceptDesc α} :
    (∃ ty g f custom vect, Accepts mapFn c ty g f custom vect) ↔ ConceptLoads mapFn.name mapFn.args c := by
  constructor
  · rintro ⟨ty, g, f, custom, vect, h⟩
    have hch := h.chosen
    have hnum := functionArgs_ok.1 ⟨_, hch.vect⟩
    refine ⟨by simp [h.type], ?_, ?_, ?_, ?_, ?_⟩
    · intro e he
      have := h.exec
      rw [he] at this
      exact excitation_known.1 ⟨g, this⟩
    · intro d hd
      rw [(hch.dict d hd).1] at hnum
      exact hnum
    · intro hd g' hg'
      obtain ⟨h1, -, h3, -⟩ := hch.named hd g' hg'
      refine ⟨activation_known.1 ⟨_, h1⟩, fun k hk => ?_⟩
      rw [h3] at hnum
      have : (c.toArgs ty).kwargs = k := by show c.customFunctionArgs.getD [] = k; rw [hk]; rfl
      rwa [this] at hnum
    · intro hd hn
      rw [(hch.other hd hn).1] at hnum
      exact hnum
    · intro hv
      have hne : f.name ≠ "fuzzy" := h.value.resolve_left hv
      have hd : c.activationDict = none := by
        cases hd : c.activationDict with
        | none => rfl
        | some d =>
          rw [(hch.dict d hd).1] at hne
          exact absurd rfl hne
      refine ⟨hd, ?_⟩
      cases hg : c.customFunction with
      | none =>
        rw [(hch.other hd hg).1] at hne
        exact hne
      | some g' =>
        rw [← (hch.named hd g' hg).2.1]
        exact hne
  · intro h
    obtain ⟨ty, hty⟩ := Option.ne_none_iff_exists'.1 h.type
    obtain ⟨g, hg⟩ : ∃ g, Excitation.getByName (c.exitationFunction.getD "KOSKO") = some g := by
      cases he : c.exitationFunction with
      | none => exact ⟨.kosko, rfl⟩
      | some e => exact excitation_known.2 (h.excitation e he)
    cases hd : c.activationDict with
    | some d =>
      obtain ⟨v, hv⟩ := functionArgs_ok.2 (h.dict d hd)
      refine ⟨ty, g, ⟨.fuzzy, "fuzzy", d⟩, true, v, hty, hg, ⟨?_, ?_, ?_, hv⟩, ?_⟩
      · intro d' e
        rw [hd] at e
        cases e
        exact ⟨rfl, rfl⟩
      · intro e
        rw [hd] at e
        cases e
      · intro e
        rw [hd] at e
        cases e
      · left
        cases ha : c.activation with
        | none => rfl
        | some x =>
          have := (h.value (by simp [ha])).1
          rw [hd] at this
          cases this
    | none =>
      cases hf : c.customFunction with
      | some f =>
        obtain ⟨hk, hnum⟩ := h.named hd f hf
        obtain ⟨fn, hfn⟩ := activation_known.2 hk
        obtain ⟨v, hv⟩ : ∃ v, processFunctionArgs (c.customFunctionArgs.getD []) = .ok v := by
          cases ha : c.customFunctionArgs with
          | none => exact ⟨[], rfl⟩
          | some k => exact functionArgs_ok.2 (hnum k ha)
        refine ⟨ty, g, ⟨fn, f, c.customFunctionArgs.getD []⟩, true, v, hty, hg, ⟨?_, ?_, ?_, hv⟩, ?_⟩
        · intro d' e
          rw [hd] at e
          cases e
        · intro _ g' e
          have e : c.customFunction = some g' := e
          rw [hf] at e
          cases e
          exact ⟨hfn, rfl, rfl, rfl⟩
        · intro _ e
          have e : c.customFunction = none := e
          rw [hf] at e
          cases e
        · by_cases ha : c.activation = none
          · exact .inl ha
          · right
            have := (h.value ha).2
            rw [hf] at this
            exact this
      | none =>
        obtain ⟨v, hv⟩ := functionArgs_ok.2 (h.unnamed hd hf)
        refine ⟨ty, g, mapFn, false, v, hty, hg, ⟨?_, ?_, ?_, hv⟩, ?_⟩
        · intro d' e
          rw [hd] at e
          cases e
        · intro _ g' e
          have e : c.customFunction = some g' := e
          rw [hf] at e
          cases e
        · exact fun _ _ => ⟨rfl, rfl⟩
        · by_cases ha : c.activation = none
          · exact .inl ha
          · right
            have := (h.value ha).2
            rw [hf] at this
            exact this

theorem loadConcepts_iff : ∀ {cs : List (ConceptDesc α)} {m : FCM α}, m.default = stdDefault m.memInfluence m.mapFn →
    ((∃ m', loadConcepts cs m = .ok m') ↔ ∀ c ∈ cs, ConceptLoads m.mapFn.name m.mapFn.args c)
  | [], m, _ => by simp [loadConcepts]
  | c :: cs, m, hd => by
    constructor
    · rintro ⟨m', h⟩
      unfold loadConcepts at h
      obtain ⟨m1, h1, h2⟩ := exc_bind_ok h
      obtain ⟨ty, g, f, custom, vect, hacc, rfl⟩ := loadConcept_ok hd h1
      intro x hx
      rcases List.mem_cons.1 hx with rfl | hx
      · exact accepts_iff.1 ⟨ty, g, f, custom, vect, hacc⟩
      · exact (loadConcepts_iff (m := m.withNode c.id _) hd).1 ⟨m', h2⟩ x hx
    · intro h
      obtain ⟨ty, g, f, custom, vect, hacc⟩ := accepts_iff.2 (h c (by simp))
      obtain ⟨m', h2⟩ := (loadConcepts_iff (cs := cs)
        (m := m.withNode c.id (loadedNode m.memInfluence c ty g f custom vect)) hd).2 fun x hx => h x (by simp [hx])
      refine ⟨m', ?_⟩
      unfold loadConcepts
      rw [loadConcept_eq hd hacc]
      exact h2

theorem loadRelations_total : ∀ (rs : List (RelDesc α)) {m : FCM α}, m.fitInclination = none →
    ∃ m', loadRelations rs m = .ok m'
  | [], m, _ => ⟨m, rfl⟩
  | r :: rs, m, hf => by
    have h : ∃ m1, FCM.addRelation r.origin r.destiny r.weight m = (.ok (), m1) ∧ m1.fitInclination = none := by
      unfold FCM.addRelation
      dsimp only
      by_cases hk : (m.topology.has r.destiny && m.topology.has r.origin) = true
      · rw [if_pos hk]
        simp only [hf]
        exact ⟨_, rfl, rfl⟩
      · rw [if_neg hk]
        exact ⟨_, rfl, hf⟩
    obtain ⟨m1, h1, h2⟩ := h
    obtain ⟨m', h3⟩ := loadRelations_total rs h2
    refine ⟨m', ?_⟩
    simp only [loadRelations, PyM.exec, h1, bind, Except.bind, h3]

/-- `from_json` returns a map exactly for the documents described by `Loads`. -/
theorem C110_from_json (d : MapDesc α) : (∃ m, fromJson d = .ok m) ↔ Loads d := by
  constructor
  · rintro ⟨m, h⟩
    obtain ⟨mi, df, mem, af, m0, cs, rs, m1, h1, h2, h3, h4, h5, h6, h7, h8, -⟩ := fromJson_ok h
    obtain ⟨k1, k2⟩ := (C110_new ..).1 ⟨m0, h5⟩
    obtain ⟨_, _, -, -, e⟩ := new_ok h5
    refine ⟨by simp [h1], ⟨df, h2, k1⟩, by simp [h3], ⟨af, h4, k2⟩, ⟨cs, h6, ?_⟩, by simp [h7]⟩
    have hcs := (loadConcepts_iff (m := { m0 with weight := d.weight.getD (lit 1) }) (by rw [e])).1 ⟨m1, h8⟩
    rw [e] at hcs
    rw [h4]
    exact hcs
  · intro h
    obtain ⟨mi, h1⟩ := Option.ne_none_iff_exists'.1 h.maxIter
    obtain ⟨df, h2, k1⟩ := h.decision
    obtain ⟨mem, h3⟩ := Option.ne_none_iff_exists'.1 h.memory
    obtain ⟨af, h4, k2⟩ := h.activation
    obtain ⟨cs, h6, hcs⟩ := h.concepts
    obtain ⟨rs, h7⟩ := Option.ne_none_iff_exists'.1 h.relations
    obtain ⟨m0, h5⟩ := (C110_new mi (d.extraSteps.getD 5) (d.stopAtStabilize.getD true)
      (d.stabilityDiff.getD (dec 1 1000)) df mem af (d.activationFunctionArgs.getD [])).2 ⟨k1, k2⟩
    obtain ⟨_, _, -, -, e⟩ := new_ok h5
    obtain ⟨m1, h8⟩ := (loadConcepts_iff (cs := cs) (m := { m0 with weight := d.weight.getD (lit 1) }) (by rw [e])).2 (by
      rw [h4] at hcs
      rw [e]
      exact hcs)
    have hL := (loadConcepts_ok (m0 := { m0 with weight := d.weight.getD (lit 1) }) (by rw [e]) (by rw [e]) h8).eq
    obtain ⟨m, h9⟩ := loadRelations_total rs (m := m1) (by rw [hL, e])
    refine ⟨m, ?_⟩
    have hb : fromJsonBody d = .ok m := by
      simp only [fromJsonBody, h1, h2, h3, h4, h6, h7, need, bind, Except.bind, h5, h8, h9]
    simp only [fromJson, hb]

/-! ### Concrete cases -/

namespace Ex

/-- A table of two values, as a client writes it. -/
def priceTable : Args ℚ := [("val_list", .list [10, 20]), ("membership", .list [0, 1])]

theorem priceTable_table : HasTable priceTable := ⟨[10, 20], [0, 1], .inr rfl, .inr rfl, by simp⟩

theorem priceTable_even (a : ConceptArgs ℚ) (h : a.activationDict = some priceTable) : Spec.Even a := by
  intro d vl mb hd h1 h2
  rw [h] at hd
  cases hd
  rcases h1 with h1 | h1
  · cases h1
  · rcases h2 with h2 | h2
    · cases h2
    · cases h1
      cases h2
      rfl

end Ex

/-- A regression concept with a table is accepted … -/
example : ∃ m', FCM.addConcept "price" { type := some TYPE_REGRESOR, activationDict := some Ex.priceTable } Ex.map1 =
    (.ok (), m') := by
  refine (C110_add_concept Ex.map1_clean.reachable "price" (Ex.priceTable_even _ rfl)).2
    ⟨by simp, ?_, by simp, ?_, by simp, by simp⟩
  · rintro - d ⟨⟩
    exact Ex.priceTable_table
  · intro h
    refine absurd (.inr ?_) h
    simp [typeOf, KnownType, Graded, TYPE_REGRESOR]

/-- … while a text among the keyword arguments, an unknown function or an unknown excitation is rejected. -/
example : ¬ ∃ m', FCM.addConcept "price" { activation := some "sigmoid", kwargs := [("lambda_val", .str "big")] } Ex.map1 =
    (.ok (), m') := by
  intro h
  have h := (C110_add_concept Ex.map1_clean.reachable "price" (fun d _ _ h => by cases h)).1 h
  exact (h.named rfl "sigmoid" rfl).2 "lambda_val" "big" rfl

example : ¬ ∃ m', FCM.setConceptProperties "a" { activation := some "sigmoidal" } Ex.map1 = (.ok (), m') := by
  rw [C110_set_concept _ "a" (fun d _ _ h => by cases h)]
  rintro ⟨-, h⟩
  have := (h.named rfl "sigmoidal" rfl).1
  simp [KnownActivation] at this

example : ∃ m', FCM.setConceptProperties "a" { activation := some "gceq", kwargs := [("weight", .num (1/2 : ℚ))] } Ex.map1 =
    (.ok (), m') := by
  refine (C110_set_concept _ "a" (fun d _ _ h => by cases h)).2 ⟨by decide +kernel, by simp, by simp, by simp, by simp,
    ?_, by simp⟩
  rintro - f ⟨⟩
  refine ⟨by simp [KnownActivation], ?_⟩
  intro k s
  simp only [Dict.get?]
  repeat' split
  all_goals simp

/-- The default type cannot be made FUZZY without a table, though it can be made REGRESOR. -/
example (m : FCM ℚ) : (¬ ∃ m', FCM.setDefaultConceptProperties { defaultArgs with type := some TYPE_FUZZY } m =
      (.ok (), m')) ∧
    ∃ m', FCM.setDefaultConceptProperties { defaultArgs with type := some TYPE_REGRESOR } m = (.ok (), m') := by
  constructor
  · rw [C110_set_default m (fun d _ _ h => by cases h)]
    intro h
    exact h.fuzzy rfl rfl
  · refine (C110_set_default m (fun d _ _ h => by cases h)).2 ⟨⟨_, rfl, .inl rfl⟩, ⟨_, rfl, ?_⟩, ?_, ?_, ?_⟩
    · exact .inr (.inr (.inl (.inr rfl)))
    · intro t d _ _ h
      cases h
    · intro h
      simp [TYPE_REGRESOR] at h
    · intro _ f h
      cases h

example : ∃ m', FCM.setMapActivationFunction "gceq" [("weight", .num (1/2 : ℚ))] Ex.map1 = (.ok (), m') := by
  refine (C110_activation Ex.map1_clean _ _).2
    ⟨by simp [KnownActivation], fun _ => ?_⟩
  intro k s
  simp only [Dict.get?]
  repeat' split
  all_goals simp

/-- A concept added after a run has only one recorded value: `is_stable` then raises. -/
def Ex.ranAdd : FCM ℚ := runOps (Ex.ops1 ++ [.runInference true, .addConcept "d" {}]) Ex.sat0

theorem Ex.ranAdd_clean : CleanReachable Ex.ranAdd :=
  Ex.cleanReachable_of (.new Ex.sat0_new) _ (by decide +kernel)

theorem Ex.ranAdd_record : Ex.ranAdd.iterations = 6 ∧ Ex.ranAdd.execution.get? "d" = some [0] ∧
    "d" ∈ Ex.ranAdd.topology.keys := by decide +kernel

example : ¬ ∃ b, Ex.ranAdd.isStable = .ok b := by
  obtain ⟨h1, h2, h3⟩ := Ex.ranAdd_record
  rw [C110_stable Ex.ranAdd_clean]
  rintro (h | h)
  · rw [h1] at h
    omega
  · obtain ⟨xs, hx, hl⟩ := h "d" h3
    rw [h2] at hx
    cases hx
    simp at hl

example := C110_final Ex.ranAdd_clean "any" []
example := C110_clear Ex.ranAdd_clean

/-- One concept with the default function `sigmoid_hip`, slopes to be fitted to 1/2. -/
theorem Ex.fitting : ∃ m : FCM ℝ, CleanReachable m ∧ m.fitInclination = some (1/2) ∧ m.topology.keys = ["a"] ∧
    ∃ n f, m.topology.get? "a" = some n ∧ n.fn = some f ∧ f.name = "sigmoid_hip" ∧ n.actvSum = 0 ∧ n.fuzzyAct = none := by
  obtain ⟨m0, h0⟩ := (C110_new (α := ℝ) 200 5 true (dec 1 1000) "MEAN" true "sigmoid_hip" []).2
    ⟨.inr (.inl rfl), by simp [KnownActivation]⟩
  have c0 : CleanReachable m0 := .new h0
  obtain ⟨df, af, -, -, e⟩ := new_ok h0
  obtain ⟨m1, h1⟩ : ∃ m', FCM.addConcept "a" {} m0 = (.ok (), m') := by
    rw [e]
    exact ⟨_, rfl⟩
  refine ⟨{ m1 with fitInclination := some (1/2) }, .step (.assignFitInclination (some (1/2))) (.step (.addConcept "a" {}) c0 h1) rfl,
    rfl, ?_⟩
  rw [e] at h1
  cases h1
  refine ⟨by simp [Dict.keys, Dict.set], _, _, rfl, rfl, rfl, ?_, rfl⟩
  simp [freshNode, lit]

/-- A first relation of weight 0 cannot be fitted and is rejected, one of weight 1 is accepted; one from an unknown
concept is accepted as well (and ignored). -/
example : ∃ m : FCM ℝ, (¬ ∃ m', FCM.addRelation "a" "a" 0 m = (.ok (), m')) ∧
    (∃ m', FCM.addRelation "a" "a" 1 m = (.ok (), m')) ∧ ∃ m', FCM.addRelation "z" "a" 0 m = (.ok (), m') := by
  obtain ⟨m, hm, h1, h2, n, f, h3, h4, h5, h6, -⟩ := Ex.fitting
  refine ⟨m, ?_, ?_, ?_⟩
  · rw [C110_relation hm]
    intro h
    refine ((h _ n f h1 (by simp [h2]) h3 h4).2 h5).2 ?_
    rw [h6, zero_add]
  · rw [C110_relation hm]
    intro fit n' f' e1 _ e3 e4
    rw [h1] at e1
    cases e1
    rw [h3] at e3
    cases e3
    rw [h4] at e4
    cases e4
    exact ⟨by simp [h5], fun _ => ⟨by norm_num, by rw [h6]; norm_num⟩⟩
  · rw [C110_relation hm]
    intro fit n' f' _ ho
    rw [h2] at ho
    simp at ho

/-- An unknown concept is rejected exactly when its presence is required. -/
example : ∃ m : FCM ℝ, (∃ m', FCM.initConcept "a" 3 true m = (.ok (), m')) ∧
    (¬ ∃ m', FCM.initConcept "z" 3 true m = (.ok (), m')) ∧ ∃ m', FCM.initConcept "z" 3 false m = (.ok (), m') := by
  obtain ⟨m, hm, h1, h2, n, f, h3, h4, h5, h6, h7⟩ := Ex.fitting
  have hz : m.topology.get? "z" = none := by
    cases hz : m.topology.get? "z" with
    | none => rfl
    | some n' =>
      have := Dict.mem_keys_of_get? hz
      simp [h2] at this
  refine ⟨m, ?_, ?_, ?_⟩
  · rw [C110_init hm]
    · refine ⟨fun h => absurd (by simp [h2]) h, ?_⟩
      intro n' f' e1 e2 e3
      rw [h3] at e1
      cases e1
      rw [h4] at e2
      cases e2
      rw [h5] at e3
      simp at e3
    · intro n' d e1 e2
      rw [h3] at e1
      cases e1
      rw [h7] at e2
      cases e2
  · rw [C110_init hm _ _ _ (fun n' d e _ => by rw [hz] at e; cases e)]
    rintro ⟨h, -⟩
    exact absurd (h (by simp [h2])) (by simp)
  · rw [C110_init hm _ _ _ (fun n' d e _ => by rw [hz] at e; cases e)]
    exact ⟨fun _ => rfl, fun n' f' e => by rw [hz] at e; cases e⟩

example : ∃ m, fromJson Ex.doc = .ok m := by
  rw [C110_from_json]
  refine ⟨by simp [Ex.doc], ⟨_, rfl, .inr (.inl rfl)⟩, by simp [Ex.doc], ⟨_, rfl, by simp [KnownActivation]⟩,
    ⟨_, rfl, ?_⟩, by simp [Ex.doc]⟩
  intro c hc
  simp only [List.mem_cons, List.not_mem_nil, or_false] at hc
  rcases hc with rfl | rfl | rfl <;> constructor <;> simp [Ex.doc, KnownActivation, Numbers]

/-- An initial value for a concept with the fuzzy function is rejected, whatever the document says otherwise. -/
example (d : MapDesc ℚ) (h : d.concepts =
    some [{ id := "x", type := some "SIMPLE", customFunction := some "fuzzy", activation := some 1 }]) : ¬ ∃ m, fromJson d = .ok m := by
  rw [C110_from_json]
  intro hl
  obtain ⟨cs, e, hcs⟩ := hl.concepts
  rw [h] at e
  cases e
  exact ((hcs _ (List.mem_singleton.2 rfl)).value (by simp)).2 rfl

end PyFCM
