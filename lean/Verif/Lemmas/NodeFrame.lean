import Verif.Lemmas.Prepared
/-
What `add_concept` and `set_concept_properties` do to a node, and the representation of relations.
-/
namespace PyFCM
open Arith

set_option linter.unusedSectionVars false

variable {α : Type} [Arith α]

/-- The parts of a node no property call touches. -/
def Node.kept (n : Node α) : List (String × α) × List α × α × α := (n.arcs, n.aux, n.value, n.actvSum)

section
variable {k : List (String × α) × List α × α × α}

theorem storeFuzzy_kept (d : Args α) : Pres (fun n : Node α => n.kept = k) (storeFuzzy d) := by
  unfold storeFuzzy
  exact Pres.bind (Pres.lift _) fun p => Pres.bind (Pres.modify fun _ h => h) fun _ => Pres.pure _

theorem copyFuzzy_kept (d : DefaultConcept α) : Pres (fun n : Node α => n.kept = k) (copyFuzzy d) := by
  unfold copyFuzzy
  exact Pres.bind (Pres.lift _) fun _ => Pres.bind (Pres.modify fun _ h => h) fun _ => Pres.bind (Pres.lift _) fun _ =>
    Pres.bind (Pres.lift _) fun _ => Pres.bind (Pres.modify fun _ h => h) fun _ => Pres.pure _

theorem buildFn_kept (f : FnInfo α) (a : ConceptArgs α) (adict : Option (Args α)) :
    Pres (fun n : Node α => n.kept = k) (buildFn f a adict) := by
  unfold buildFn
  split
  · exact Pres.bind (Pres.modify fun _ h => h) fun _ => Pres.lift _
  · split
    · split
      · exact Pres.bind (Pres.modify fun _ h => h) fun _ => Pres.lift _
      · exact Pres.raise _
    · exact Pres.bind (Pres.modify fun _ h => h) fun _ => Pres.bind (Pres.lift _) fun _ =>
        Pres.bind (Pres.modify fun _ h => h) fun _ => Pres.pure _

theorem buildRest_kept (b : Bool) (f : FnInfo α) (a : ConceptArgs α) (adict : Option (Args α)) :
    Pres (fun n : Node α => n.kept = k) (buildRest b f a adict) := by
  unfold buildRest
  exact Pres.bind (Pres.modify fun _ h => h) fun _ => Pres.bind (buildFn_kept f a adict) fun _ =>
    Pres.modify fun _ h => h

theorem buildNode_kept (d : DefaultConcept α) (a : ConceptArgs α) :
    Pres (fun n : Node α => n.kept = k) (buildNode d a) := by
  unfold buildNode
  refine Pres.bind ?_ fun _ => Pres.bind (Pres.modify fun _ h => h) fun _ => Pres.bind ?_ fun _ => buildRest_kept _ _ _ _
  · unfold buildExec
    split
    · split
      · exact Pres.modify fun _ h => h
      · exact Pres.raise _
    · exact Pres.modify fun _ h => h
  · unfold buildFuzzy
    split
    · split
      · exact storeFuzzy_kept _
      · split
        · exact copyFuzzy_kept _
        · exact Pres.pure _
    · exact Pres.pure _

theorem updateActive_kept (a : ConceptArgs α) : Pres (fun n : Node α => n.kept = k) (updateActive a) := by
  unfold updateActive
  split
  · exact Pres.modify fun _ h => h
  · exact Pres.pure _

theorem updateExec_kept (a : ConceptArgs α) : Pres (fun n : Node α => n.kept = k) (updateExec a) := by
  unfold updateExec
  split
  · split
    · exact Pres.modify fun _ h => h
    · exact Pres.raise _
  · exact Pres.pure _

theorem updateType_kept (a : ConceptArgs α) : Pres (fun n : Node α => n.kept = k) (updateType a) := by
  unfold updateType
  split
  · split
    · exact Pres.modify fun _ h => h
    · exact Pres.raise _
  · exact Pres.pure _

theorem updateFuzzy_kept (a : ConceptArgs α) : Pres (fun n : Node α => n.kept = k) (updateFuzzy a) := by
  unfold updateFuzzy
  split
  · split
    · exact storeFuzzy_kept _
    · exact Pres.pure _
  · exact Pres.pure _

theorem updateNode_kept (b : Bool) (f : FnInfo α) (a : ConceptArgs α) :
    Pres (fun n : Node α => n.kept = k) (updateNode b f a) := by
  unfold updateNode
  exact Pres.bind (updateActive_kept a) fun _ => Pres.bind (updateExec_kept a) fun _ =>
    Pres.bind (updateType_kept a) fun _ => Pres.bind (updateFuzzy_kept a) fun _ => buildRest_kept _ _ _ _

end

/-! ### Complete nodes -/

/-- Every key used anywhere is present. -/
structure Node.Full (n : Node α) : Prop where
  exec : n.exec.isSome
  type : n.type.isSome
  useMem : n.useMem.isSome
  useMapFunc : n.useMapFunc.isSome
  fn : n.fn.isSome
  argsVect : n.argsVect.isSome

theorem bind_okP {σ β γ : Type} {x : PyM σ β} {f : β → PyM σ γ} {s s' : σ} {c : γ} (h : (x >>= f) s = (.ok c, s')) :
    ∃ b s1, x s = (.ok b, s1) ∧ f b s1 = (.ok c, s') := by
  rw [PyM.run_bind] at h
  split at h
  · rename_i b s1 hx; exact ⟨b, s1, hx, h⟩
  · cases h

theorem modify_okP {σ : Type} {f : σ → σ} {s s' : σ} {u : Unit} (h : PyM.modify f s = (.ok u, s')) : s' = f s := by
  cases h; rfl

theorem lift_okP {σ β : Type} {x : Except Err β} {b : β} {s s' : σ} (h : (PyM.lift x : PyM σ β) s = (.ok b, s')) :
    x = .ok b ∧ s' = s := by
  cases h; exact ⟨rfl, rfl⟩

theorem pure_okP {σ β : Type} {b c : β} {s s' : σ} (h : (pure b : PyM σ β) s = (.ok c, s')) : c = b ∧ s' = s := by
  cases h; exact ⟨rfl, rfl⟩

/-- The fuzzy description does not matter to anything else. -/
def Node.noFuzzy (n : Node α) : Node α := { n with fuzzyAct := none, fuzzyMin := none, fuzzyMax := none }

theorem storeFuzzy_ok {d : Args α} {n n' : Node α} {r : Option (Args α)} (h : storeFuzzy d n = (.ok r, n')) :
    n'.noFuzzy = n.noFuzzy ∧ ∃ p, processActivationDict d = .ok p ∧ r = some p.2.toArgs ∧
      n'.fuzzyAct = some p.1 ∧ n'.fuzzyMin = p.1.fmin ∧ n'.fuzzyMax = p.1.fmax := by
  unfold storeFuzzy at h
  obtain ⟨p, s1, h1, g1⟩ := bind_okP h
  obtain ⟨_, s2, h2, g2⟩ := bind_okP g1
  obtain ⟨hp, rfl⟩ := lift_okP h1
  obtain rfl := modify_okP h2
  obtain ⟨rfl, rfl⟩ := pure_okP g2
  exact ⟨rfl, p, hp, rfl, rfl, rfl, rfl⟩

theorem copyFuzzy_ok {d : DefaultConcept α} {n n' : Node α} {r : Option (Args α)} (h : copyFuzzy d n = (.ok r, n')) :
    n'.noFuzzy = n.noFuzzy ∧ r = none ∧ d.fuzzyAct.isSome ∧ n'.fuzzyAct = d.fuzzyAct := by
  unfold copyFuzzy at h
  obtain ⟨p, s1, h1, g1⟩ := bind_okP h
  obtain ⟨_, s2, h2, g2⟩ := bind_okP g1
  obtain ⟨_, s3, h3, g3⟩ := bind_okP g2
  obtain ⟨_, s4, h4, g4⟩ := bind_okP g3
  obtain ⟨_, s5, h5, g5⟩ := bind_okP g4
  obtain ⟨hp, rfl⟩ := lift_okP h1
  obtain rfl := modify_okP h2
  obtain ⟨hp3, rfl⟩ := lift_okP h3
  obtain ⟨hp4, rfl⟩ := lift_okP h4
  obtain rfl := modify_okP h5
  obtain ⟨rfl, rfl⟩ := pure_okP g5
  have : d.fuzzyAct = some p := by
    cases hd : d.fuzzyAct with
    | none => rw [hd] at hp; cases hp
    | some q => rw [hd] at hp; cases hp; rfl
  exact ⟨rfl, rfl, by rw [this]; rfl, this.symm⟩

theorem updateFuzzy_ok {a : ConceptArgs α} {n n' : Node α} {r : Option (Args α)} (h : updateFuzzy a n = (.ok r, n')) :
    n'.noFuzzy = n.noFuzzy ∧ r.isSome = a.activationDict.isSome := by
  unfold updateFuzzy at h
  cases hd : a.activationDict with
  | some d =>
    simp only [hd] at h
    by_cases hc : ((a.type.map isFuzzyType).getD false) = true
    · rw [if_pos hc] at h
      obtain ⟨h1, p, -, rfl, -⟩ := storeFuzzy_ok h
      exact ⟨h1, rfl⟩
    · rw [if_neg hc] at h
      obtain ⟨rfl, rfl⟩ := pure_okP h
      exact ⟨rfl, rfl⟩
  | none =>
    simp only [hd] at h
    obtain ⟨rfl, rfl⟩ := pure_okP h
    exact ⟨rfl, rfl⟩

/-- Which function `buildFn` chooses. -/
structure Chosen (fallback : FnInfo α) (a : ConceptArgs α) (adict : Option (Args α)) (f : FnInfo α) (custom : Bool)
    (vect : List α) : Prop where
  dict : ∀ d, adict = some d → f = ⟨.fuzzy, "fuzzy", d⟩ ∧ custom = true
  named : adict = none → ∀ g, a.activation = some g →
    Activation.getFunctionByName g = some f.fn ∧ f.name = g ∧ f.args = a.kwargs ∧ custom = true
  other : adict = none → a.activation = none → f = fallback ∧ custom = false
  vect : processFunctionArgs f.args = .ok vect

theorem buildRest_ok {b : Bool} {fb : FnInfo α} {a : ConceptArgs α} {adict : Option (Args α)} {n n' : Node α}
    (h : buildRest b fb a adict n = (.ok (), n')) :
    ∃ f custom vect, Chosen fb a adict f custom vect ∧
      n' = { n with useMem := some b, useMapFunc := some (!custom), fn := some f, argsVect := some vect } := by
  unfold buildRest at h
  obtain ⟨_, s1, h1, g1⟩ := bind_okP h
  obtain ⟨vect, s2, h2, g2⟩ := bind_okP g1
  obtain rfl := modify_okP h1
  obtain rfl := modify_okP g2
  unfold buildFn at h2
  rcases adict with _ | d
  case some =>
    dsimp only at h2
    obtain ⟨_, s3, h3, g3⟩ := bind_okP h2
    obtain rfl := modify_okP h3
    obtain ⟨hv, rfl⟩ := lift_okP g3
    exact ⟨⟨.fuzzy, "fuzzy", d⟩, true, vect,
      ⟨fun d' hd => by cases hd; exact ⟨rfl, rfl⟩, (nomatch ·), (nomatch ·), hv⟩, rfl⟩
  case none =>
    dsimp only at h2
    rcases hg : a.activation with _ | g
    case some =>
      simp only [hg] at h2
      rcases hfn : Activation.getFunctionByName g with _ | fn
      case none => simp only [hfn] at h2; cases h2
      case some =>
        simp only [hfn] at h2
        obtain ⟨_, s3, h3, g4⟩ := bind_okP h2
        obtain rfl := modify_okP h3
        obtain ⟨hv, rfl⟩ := lift_okP g4
        refine ⟨⟨fn, g, a.kwargs⟩, true, vect, ⟨(fun _ h => (nomatch h)), ?_, ?_, hv⟩, rfl⟩
        · intro _ g' hg'; rw [hg] at hg'; cases hg'; exact ⟨hfn, rfl, rfl, rfl⟩
        · intro _ hn; rw [hg] at hn; cases hn
    case none =>
      simp only [hg] at h2
      obtain ⟨_, s3, h3, g5⟩ := bind_okP h2
      obtain ⟨_, s4, h4, g6⟩ := bind_okP g5
      obtain ⟨_, s5, h5, g7⟩ := bind_okP g6
      obtain rfl := modify_okP h3
      obtain ⟨hv, rfl⟩ := lift_okP h4
      obtain rfl := modify_okP h5
      obtain ⟨rfl, rfl⟩ := pure_okP g7
      refine ⟨fb, false, vect, ⟨(fun _ h => (nomatch h)), ?_, fun _ _ => ⟨rfl, rfl⟩, hv⟩, rfl⟩
      intro _ g' hg'; rw [hg] at hg'; cases hg'

/-- What a successful `add_concept` builds (up to the fuzzy description). -/
theorem buildNode_ok {d : DefaultConcept α} {a : ConceptArgs α} {n n' : Node α}
    (h : buildNode d a n = (.ok (), n')) :
    ∃ ex adict f custom vect,
      (match a.excitation with
       | some e => ∃ g, Excitation.getByName e = some g ∧ ex = (g, e)
       | none => ex = d.exec) ∧
      (adict.isSome = a.activationDict.isSome) ∧
      Chosen d.fn a adict f custom vect ∧
      n'.noFuzzy = { n.noFuzzy with exec := some ex, type := some (buildType d a),
                                    useMem := some (a.useMemory.getD d.useMem), useMapFunc := some (!custom),
                                    fn := some f, argsVect := some vect } := by
  unfold buildNode at h
  obtain ⟨_, s1, h1, g1⟩ := bind_okP h
  obtain ⟨_, s2, h2, g2⟩ := bind_okP g1
  obtain ⟨adict, s3, h3, g3⟩ := bind_okP g2
  obtain rfl := modify_okP h2
  obtain ⟨f, custom, vect, hch, rfl⟩ := buildRest_ok g3
  have hex : ∃ ex, (match a.excitation with
       | some e => ∃ g, Excitation.getByName e = some g ∧ ex = (g, e)
       | none => ex = d.exec) ∧ s1 = { n with exec := some ex } := by
    unfold buildExec at h1
    rcases he : a.excitation with _ | e
    case some =>
      simp only [he] at h1
      rcases hg : Excitation.getByName e with _ | g
      case none => simp only [hg] at h1; cases h1
      case some =>
        simp only [hg] at h1
        obtain rfl := modify_okP h1
        exact ⟨(g, e), ⟨g, hg, rfl⟩, rfl⟩
    case none =>
      simp only [he] at h1
      obtain rfl := modify_okP h1
      exact ⟨d.exec, rfl, rfl⟩
  obtain ⟨ex, hex, rfl⟩ := hex
  have hfz : s3.noFuzzy = Node.noFuzzy { n with exec := some ex, type := some (buildType d a) } ∧
      adict.isSome = a.activationDict.isSome := by
    unfold buildFuzzy at h3
    by_cases hc : isFuzzyType (buildType d a) = true
    · rw [if_pos hc] at h3
      rcases hdd : a.activationDict with _ | dd
      case some =>
        simp only [hdd] at h3
        obtain ⟨e, p, -, rfl, -⟩ := storeFuzzy_ok h3
        exact ⟨e, rfl⟩
      case none =>
        simp only [hdd] at h3
        by_cases hc2 : d.type = buildType d a
        · rw [if_pos hc2] at h3
          obtain ⟨e, rfl, -⟩ := copyFuzzy_ok h3
          exact ⟨e, rfl⟩
        · rw [if_neg hc2] at h3
          obtain ⟨rfl, rfl⟩ := pure_okP h3
          exact ⟨rfl, rfl⟩
    · rw [if_neg hc] at h3
      obtain ⟨rfl, rfl⟩ := pure_okP h3
      exact ⟨rfl, rfl⟩
  refine ⟨ex, adict, f, custom, vect, hex, hfz.2, hch, ?_⟩
  have e := hfz.1
  unfold Node.noFuzzy at e ⊢
  simp only [Node.mk.injEq] at e ⊢
  simp_all

/-- What a successful `set_concept_properties` does to a node (up to the fuzzy description). -/
theorem updateNode_ok {b : Bool} {fb : FnInfo α} {a : ConceptArgs α} {n n' : Node α}
    (h : updateNode b fb a n = (.ok (), n')) :
    ∃ ex ty adict f custom vect,
      (match a.excitation with
       | some e => ∃ g, Excitation.getByName e = some g ∧ ex = some (g, e)
       | none => ex = n.exec) ∧
      (match a.type with
       | some t => isValidType t = true ∧ ty = some t
       | none => ty = n.type) ∧
      (adict.isSome = a.activationDict.isSome) ∧
      Chosen fb a adict f custom vect ∧
      n'.noFuzzy = { n.noFuzzy with active := a.isActive.getD n.active, exec := ex, type := ty,
                                    useMem := some (a.useMemory.getD b), useMapFunc := some (!custom),
                                    fn := some f, argsVect := some vect } := by
  unfold updateNode at h
  obtain ⟨_, s1, h1, g1⟩ := bind_okP h
  obtain ⟨_, s2, h2, g2⟩ := bind_okP g1
  obtain ⟨_, s3, h3, g3⟩ := bind_okP g2
  obtain ⟨adict, s4, h4, g4⟩ := bind_okP g3
  obtain ⟨f, custom, vect, hch, rfl⟩ := buildRest_ok g4
  obtain ⟨hfz, had⟩ := updateFuzzy_ok h4
  have e1 : s1 = { n with active := a.isActive.getD n.active } := by
    unfold updateActive at h1
    rcases hv : a.isActive with _ | v
    case some =>
      simp only [hv] at h1
      obtain rfl := modify_okP h1
      rfl
    case none =>
      simp only [hv] at h1
      obtain ⟨-, rfl⟩ := pure_okP h1
      rfl
  subst e1
  have hex : ∃ ex, (match a.excitation with
       | some e => ∃ g, Excitation.getByName e = some g ∧ ex = some (g, e)
       | none => ex = n.exec) ∧ s2 = { n with active := a.isActive.getD n.active, exec := ex } := by
    unfold updateExec at h2
    rcases he : a.excitation with _ | e
    case some =>
      simp only [he] at h2
      rcases hg : Excitation.getByName e with _ | g
      case none => simp only [hg] at h2; cases h2
      case some =>
        simp only [hg] at h2
        obtain rfl := modify_okP h2
        exact ⟨some (g, e), ⟨g, hg, rfl⟩, rfl⟩
    case none =>
      simp only [he] at h2
      obtain ⟨-, rfl⟩ := pure_okP h2
      exact ⟨n.exec, rfl, rfl⟩
  obtain ⟨ex, hex, rfl⟩ := hex
  have hty : ∃ ty, (match a.type with
       | some t => isValidType t = true ∧ ty = some t
       | none => ty = n.type) ∧ s3 = { n with active := a.isActive.getD n.active, exec := ex, type := ty } := by
    unfold updateType at h3
    rcases ht : a.type with _ | t
    case some =>
      simp only [ht] at h3
      by_cases hv : isValidType t = true
      · rw [if_pos hv] at h3
        obtain rfl := modify_okP h3
        exact ⟨some t, ⟨hv, rfl⟩, rfl⟩
      · rw [if_neg hv] at h3; cases h3
    case none =>
      simp only [ht] at h3
      obtain ⟨-, rfl⟩ := pure_okP h3
      exact ⟨n.type, rfl, rfl⟩
  obtain ⟨ty, hty, rfl⟩ := hty
  refine ⟨ex, ty, adict, f, custom, vect, hex, hty, had, hch, ?_⟩
  unfold Node.noFuzzy at hfz ⊢
  simp only [Node.mk.injEq] at hfz ⊢
  simp_all

end PyFCM
