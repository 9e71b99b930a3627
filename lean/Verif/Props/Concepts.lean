import Verif.Props.State
/-
C71 (what an accepted add_concept stores) and C72 (stored names and stored functions agree).
-/
namespace PyFCM
open Arith

set_option linter.unusedSectionVars false

variable {α : Type} [Arith α]

/-! ### C71 -/

/-- The fuzzy description that a successful `add_concept` stores, and the dictionary its function gets. -/
theorem buildNode_fuzzy {d : DefaultConcept α} {a : ConceptArgs α} {n n' : Node α}
    (h : buildNode d a n = (.ok (), n')) :
    ∃ adict f custom vect, Chosen d.fn a adict f custom vect ∧ n'.fn = some f ∧ n'.useMapFunc = some (!custom) ∧
      (∀ x, a.activationDict = some x → isFuzzyType (buildType d a) = true →
        ∃ p, processActivationDict x = .ok p ∧ adict = some p.2.toArgs ∧
          n'.fuzzyAct = some p.1 ∧ n'.fuzzyMin = p.1.fmin ∧ n'.fuzzyMax = p.1.fmax) ∧
      (∀ x, a.activationDict = some x → isFuzzyType (buildType d a) = false → adict = some x ∧
        n'.fuzzyAct = n.fuzzyAct ∧ n'.fuzzyMin = n.fuzzyMin ∧ n'.fuzzyMax = n.fuzzyMax) ∧
      (a.activationDict = none → adict = none ∧
        (isFuzzyType (buildType d a) = true → d.type = buildType d a →
          n'.fuzzyAct = d.fuzzyAct ∧ n'.fuzzyMin = d.fuzzyMin ∧ n'.fuzzyMax = d.fuzzyMax ∧ d.fuzzyAct.isSome) ∧
        (isFuzzyType (buildType d a) = false ∨ d.type ≠ buildType d a →
          n'.fuzzyAct = n.fuzzyAct ∧ n'.fuzzyMin = n.fuzzyMin ∧ n'.fuzzyMax = n.fuzzyMax)) := by
  unfold buildNode at h
  obtain ⟨_, s1, h1, g1⟩ := bind_okP h
  obtain ⟨_, s2, h2, g2⟩ := bind_okP g1
  obtain ⟨adict, s3, h3, g3⟩ := bind_okP g2
  obtain rfl := modify_okP h2
  obtain ⟨f, custom, vect, hch, rfl⟩ := buildRest_ok g3
  refine ⟨adict, f, custom, vect, hch, rfl, rfl, ?_⟩
  have hs1 : s1.fuzzyAct = n.fuzzyAct ∧ s1.fuzzyMin = n.fuzzyMin ∧ s1.fuzzyMax = n.fuzzyMax := by
    unfold buildExec at h1
    rcases he : a.excitation with _ | e
    · simp only [he] at h1
      obtain rfl := modify_okP h1
      exact ⟨rfl, rfl, rfl⟩
    · simp only [he] at h1
      rcases hg : Excitation.getByName e with _ | g
      · simp only [hg] at h1; cases h1
      · simp only [hg] at h1
        obtain rfl := modify_okP h1
        exact ⟨rfl, rfl, rfl⟩
  unfold buildFuzzy at h3
  by_cases hc : isFuzzyType (buildType d a) = true
  · rw [if_pos hc] at h3
    rcases hd : a.activationDict with _ | x
    · simp only [hd] at h3
      refine ⟨fun _ h => (nomatch h), fun _ h => (nomatch h), fun _ => ?_⟩
      by_cases hc2 : d.type = buildType d a
      · rw [if_pos hc2] at h3
        unfold copyFuzzy at h3
        obtain ⟨p, t1, k1, l1⟩ := bind_okP h3
        obtain ⟨_, t2, k2, l2⟩ := bind_okP l1
        obtain ⟨lo, t3, k3, l3⟩ := bind_okP l2
        obtain ⟨hi, t4, k4, l4⟩ := bind_okP l3
        obtain ⟨_, t5, k5, l5⟩ := bind_okP l4
        obtain ⟨hp, rfl⟩ := lift_okP k1
        obtain rfl := modify_okP k2
        obtain ⟨hp3, rfl⟩ := lift_okP k3
        obtain ⟨hp4, rfl⟩ := lift_okP k4
        obtain rfl := modify_okP k5
        obtain ⟨rfl, rfl⟩ := pure_okP l5
        have need_some {β : Type} {k : String} {o : Option β} {b : β} (h : need k o = .ok b) : o = some b := by
          cases o with
          | none => cases h
          | some c => cases h; rfl
        refine ⟨rfl, fun _ _ => ⟨(need_some hp).symm, (need_some hp3).symm, (need_some hp4).symm, ?_⟩, fun h => ?_⟩
        · rw [need_some hp]; rfl
        · rcases h with h | h
          · rw [hc] at h; cases h
          · exact absurd hc2 h
      · rw [if_neg hc2] at h3
        obtain ⟨rfl, rfl⟩ := pure_okP h3
        exact ⟨rfl, fun _ h => absurd h hc2, fun _ => hs1⟩
    · simp only [hd] at h3
      obtain ⟨-, p, h1, h2, h3, h4, h5⟩ := storeFuzzy_ok h3
      refine ⟨fun y hy _ => ?_, fun _ _ h => ?_, (nomatch ·)⟩
      · cases hy; exact ⟨p, h1, h2, h3, h4, h5⟩
      · rw [hc] at h; cases h
  · rw [if_neg hc] at h3
    obtain ⟨rfl, rfl⟩ := pure_okP h3
    refine ⟨fun _ _ h => absurd h hc, fun x hx _ => ⟨hx, hs1⟩, fun hx => ⟨hx, fun h => absurd h hc, fun _ => hs1⟩⟩

/-- C71: an accepted `add_concept` leaves the settings, the relations and every other concept as they are, and adds a
concept without outgoing relations, with value and trajectory 0 and with the given properties - for properties not given,
those of the default concept. -/
theorem C71_added {m m' : FCM α} {c : String} {a : ConceptArgs α} (h : FCM.addConcept c a m = (.ok (), m')) :
    m' = { m with prepared := false, topology := m'.topology, execution := m'.execution } ∧
    (∀ c', c' ≠ c → m'.topology.get? c' = m.topology.get? c' ∧ m'.execution.get? c' = m.execution.get? c') ∧
    m'.execution.get? c = some [lit 0] ∧
    ∃ n, m'.topology.get? c = some n ∧ n.value = lit 0 ∧ n.arcs = [] ∧ n.aux = [] ∧ n.actvSum = lit 0 ∧
      n.active = a.isActive.getD m.default.active ∧ n.useMem = some (a.useMemory.getD m.default.useMem) ∧
      (a.excitation = none → n.exec = some m.default.exec) ∧
      (∀ e, a.excitation = some e → ∃ g, Excitation.getByName e = some g ∧ n.exec = some (g, e)) ∧
      (∀ t, a.type = some t → isValidType t = true → n.type = some t) ∧
      ((∀ t, a.type = some t → isValidType t = false) → n.type = some m.default.type) ∧
      (a.activationDict = none → a.activation = none → n.fn = some m.default.fn ∧ n.useMapFunc = some true) ∧
      (∀ g, a.activationDict = none → a.activation = some g →
        ∃ fn, Activation.getFunctionByName g = some fn ∧ n.fn = some ⟨fn, g, a.kwargs⟩ ∧ n.useMapFunc = some false) := by
  rcases hb : buildNode m.default a (freshNode (a.isActive.getD m.default.active)) with ⟨r, node⟩
  simp only [FCM.addConcept, hb] at h
  rcases r with e | ⟨⟩
  · cases h
  cases h
  obtain ⟨ex, adict, f, custom, vect, hex, had, hch, e⟩ := buildNode_ok hb
  have e0 : node.active = _ := (congrArg Node.active e :)
  have e1 : node.arcs = _ := (congrArg Node.arcs e :)
  have e2 : node.exec = _ := (congrArg Node.exec e :)
  have e3 : node.type = _ := (congrArg Node.type e :)
  have e4 : node.useMem = _ := (congrArg Node.useMem e :)
  have e5 : node.useMapFunc = _ := (congrArg Node.useMapFunc e :)
  have e6 : node.fn = _ := (congrArg Node.fn e :)
  have e7 : node.aux = _ := (congrArg Node.aux e :)
  have e8 : node.actvSum = _ := (congrArg Node.actvSum e :)
  dsimp only [Node.noFuzzy, freshNode] at e0 e1 e2 e3 e4 e5 e6 e7 e8
  have hnone : a.activationDict = none → adict = none := by
    intro h
    rw [h] at had
    cases adict with
    | none => rfl
    | some _ => cases had
  refine ⟨rfl, fun c' hc => ⟨Dict.get?_set_ne _ _ (Ne.symm hc), Dict.get?_set_ne _ _ (Ne.symm hc)⟩, by simp,
    { node with value := lit 0 }, by simp, rfl, e1, e7, e8, e0, e4, ?_, ?_, ?_, ?_, ?_, ?_⟩
  · intro hx; rw [hx] at hex; exact e2.trans (by rw [hex])
  · intro x hx; rw [hx] at hex; obtain ⟨g, h1, h2⟩ := hex; exact ⟨g, h1, e2.trans (by rw [h2])⟩
  · intro t ht hv
    refine e3.trans ?_
    unfold buildType
    rw [ht]
    simp [hv]
  · intro ht
    refine e3.trans ?_
    unfold buildType
    cases hty : a.type with
    | none => rfl
    | some t => simp [ht t hty]
  · intro hd hg
    obtain ⟨h1, h2⟩ := hch.other (hnone hd) hg
    exact ⟨e6.trans (by rw [h1]), e5.trans (by rw [h2]; rfl)⟩
  · intro g hd hg
    obtain ⟨h1, h2, h3, h4⟩ := hch.named (hnone hd) g hg
    exact ⟨f.fn, h1, e6.trans (by rw [← h2, ← h3]), e5.trans (by rw [h4]; rfl)⟩

/-- C71, concepts described by a list of values with memberships: a fuzzy concept keeps the description with the values in
increasing order (see C24, C25) together with the bounds used for normalisation, and its function is evaluated on the
scaled description; for other types the dictionary is passed to the function as it is; a fuzzy concept without a
description takes that of the default concept if this is of the same type. -/
theorem C71_fuzzy {m m' : FCM α} {c : String} {a : ConceptArgs α} (h : FCM.addConcept c a m = (.ok (), m')) :
    ∃ n, m'.topology.get? c = some n ∧
      (∀ x t, a.activationDict = some x → n.type = some t → t = TYPE_FUZZY ∨ t = TYPE_REGRESOR →
        ∃ sorted scaled, processActivationDict x = .ok (sorted, scaled) ∧ n.fuzzyAct = some sorted ∧
          n.fuzzyMin = sorted.valList.head?.map Arith.abs ∧ n.fuzzyMax = sorted.valList.getLast? ∧
          n.fn = some ⟨.fuzzy, "fuzzy", [("val_list", .arr scaled.valList), ("membership", .arr scaled.membership)]⟩ ∧
          n.useMapFunc = some false) ∧
      (∀ x t, a.activationDict = some x → n.type = some t → ¬ (t = TYPE_FUZZY ∨ t = TYPE_REGRESOR) →
        n.fuzzyAct = none ∧ n.fn = some ⟨.fuzzy, "fuzzy", x⟩ ∧ n.useMapFunc = some false) ∧
      (∀ t, a.activationDict = none → n.type = some t → (t = TYPE_FUZZY ∨ t = TYPE_REGRESOR) → m.default.type = t →
        n.fuzzyAct = m.default.fuzzyAct ∧ n.fuzzyMin = m.default.fuzzyMin ∧ n.fuzzyMax = m.default.fuzzyMax) ∧
      (∀ t, a.activationDict = none → n.type = some t → ¬ (t = TYPE_FUZZY ∨ t = TYPE_REGRESOR) → n.fuzzyAct = none) := by
  rcases hb : buildNode m.default a (freshNode (a.isActive.getD m.default.active)) with ⟨r, node⟩
  simp only [FCM.addConcept, hb] at h
  rcases r with e | ⟨⟩
  · cases h
  cases h
  obtain ⟨_, _, _, _, _, -, -, -, e⟩ := buildNode_ok hb
  obtain ⟨adict, f, custom, vect, hch, hf, hu, hfz, hraw, hno⟩ := buildNode_fuzzy hb
  have e3 : node.type = _ := (congrArg Node.type e :)
  dsimp only [Node.noFuzzy] at e3
  have fz (t : String) : isFuzzyType t = true ↔ t = TYPE_FUZZY ∨ t = TYPE_REGRESOR := by
    simp [isFuzzyType]
  have fzn (t : String) : isFuzzyType t = false ↔ ¬ (t = TYPE_FUZZY ∨ t = TYPE_REGRESOR) := by
    rw [← fz, Bool.not_eq_true]
  refine ⟨{ node with value := lit 0 }, by simp, ?_, ?_, ?_, ?_⟩
  · intro x t hx ht htf
    obtain rfl : buildType m.default a = t := Option.some.inj (e3.symm.trans ht)
    obtain ⟨p, h1, h2, h3, h4, h5⟩ := hfz x hx ((fz _).2 htf)
    obtain ⟨h6, h7⟩ := hch.dict _ h2
    exact ⟨p.1, p.2, h1, h3, h4, h5, hf.trans (by rw [h6]; rfl), hu.trans (by rw [h7]; rfl)⟩
  · intro x t hx ht htf
    obtain rfl : buildType m.default a = t := Option.some.inj (e3.symm.trans ht)
    obtain ⟨h2, h3, -⟩ := hraw x hx ((fzn _).2 htf)
    obtain ⟨h6, h7⟩ := hch.dict _ h2
    exact ⟨h3, hf.trans (by rw [h6]), hu.trans (by rw [h7]; rfl)⟩
  · intro t hx ht htf hd
    obtain rfl : buildType m.default a = t := Option.some.inj (e3.symm.trans ht)
    obtain ⟨h1, h2, h3, -⟩ := (hno hx).2.1 ((fz _).2 htf) hd
    exact ⟨h1, h2, h3⟩
  · intro t hx ht htf
    obtain rfl : buildType m.default a = t := Option.some.inj (e3.symm.trans ht)
    exact ((hno hx).2.2 (.inl ((fzn _).2 htf))).1

namespace Ex
def sigmoidArgs : ConceptArgs ℚ :=
  { activation := some "sigmoid", kwargs := [("lambda_val", .num 2)], isActive := some false }
def twoPoints : ConceptArgs ℚ :=
  { type := some TYPE_FUZZY, activationDict := some [("val_list", .list [3, 1]), ("membership", .list [1, 0])] }
end Ex

/-- A concept with a function of its own, and a fuzzy one, added to `map1`. -/
example := C71_added (Ex.run_eq (x := FCM.addConcept "d" Ex.sigmoidArgs Ex.map1) (by decide +kernel))
example := C71_fuzzy (Ex.run_eq (x := FCM.addConcept "d" Ex.twoPoints Ex.map1) (by decide +kernel))

/-! ### C72 -/

/-- C72: in every state a client can bring a map into, also by calls that raise, the stored functions are the ones the
stored names stand for, and the stored types are valid ones. -/
theorem C72_names {m : FCM α} (hr : Reachable m) :
    Decision.getByName m.decisionName = some m.decisionFn ∧
    Activation.getFunctionByName m.mapFn.name = some m.mapFn.fn ∧
    (∀ c n, m.topology.get? c = some n →
      (∀ f, n.fn = some f → Activation.getFunctionByName f.name = some f.fn) ∧
      (∀ f s, n.exec = some (f, s) → Excitation.getByName s = some f) ∧
      (∀ t, n.type = some t → t ∈ [TYPE_SIMPLE, TYPE_DECISION, TYPE_FUZZY, TYPE_REGRESOR, TYPE_MUTI, TYPE_MUTI_DESC])) := by
  have hi := hr.inv
  refine ⟨hi.dec, hi.mapFn, fun c n hn => ⟨(hi.nodes c n hn).fn, fun f s h => (hi.nodes c n hn).exec _ h, fun t ht => ?_⟩⟩
  have := (hi.nodes c n hn).type t ht
  unfold isValidType at this
  exact List.contains_iff_mem.1 this

/-- C72: if no call raised, every concept is complete and the argument vector used by the vectorised engine consists of the
arguments of its function. -/
theorem C72_vector {m : FCM α} (hr : CleanReachable m) {c : String} {n : Node α} (hn : m.topology.get? c = some n) :
    ∃ f v, n.fn = some f ∧ n.argsVect = some v ∧ processFunctionArgs f.args = .ok v ∧ n.exec.isSome ∧ n.type.isSome ∧
      n.useMem.isSome ∧ n.useMapFunc.isSome := by
  have h := hr.clean.good c n hn
  obtain ⟨f, hf⟩ := Option.isSome_iff_exists.1 h.full.fn
  obtain ⟨v, hv⟩ := Option.isSome_iff_exists.1 h.full.argsVect
  exact ⟨f, v, hf, hv, h.vect f v hf hv, h.full.exec, h.full.type, h.full.useMem, h.full.useMapFunc⟩

example := C72_names Ex.map1_reachable
example : ∃ n, Ex.map1.topology.get? "a" = some n ∧ n.fn.isSome := by
  cases hn : Ex.map1.topology.get? "a" with
  | none => exact absurd hn (by decide +kernel)
  | some n =>
    obtain ⟨f, _, hf, _⟩ := C72_vector Ex.map1_clean hn
    exact ⟨n, rfl, by rw [hf]; rfl⟩

end PyFCM
