import Verif.Props.Json
import Verif.Lemmas.Rename
/-
C83: loading goes through the public API, and a second round trip loses nothing.
-/
namespace PyFCM
open Arith Spec

set_option linter.unusedSectionVars false

section
variable {α : Type} [Arith α]

theorem exec_ok {x : PyM (FCM α) Unit} {m m' : FCM α} (h : x.exec m = .ok m') : x m = (.ok (), m') := by
  unfold PyM.exec at h
  rcases hx : x m with ⟨e | u, m1⟩
  · rw [hx] at h; cases h
  · rw [hx] at h; cases h; rfl

/-- One concept of the document: one or two calls. -/
theorem loadConcept_reach {P : FCM α → Prop} {c : ConceptDesc α} {m m' : FCM α}
    (hadd : ∀ a m1, FCM.addConcept c.id a m = (.ok (), m1) → P m1)
    (hinit : ∀ (m1 m2 : FCM α) v, P m1 → FCM.initConcept c.id v true m1 = (.ok (), m2) → P m2)
    (h : loadConcept c m = .ok m') : P m' := by
  unfold loadConcept at h
  obtain ⟨ty, h1, h⟩ := exc_bind h
  obtain ⟨m1, h2, h⟩ := exc_bind h
  have p1 := hadd _ _ (exec_ok h2)
  rcases hv : c.activation with _ | v
  · rw [hv] at h; cases h; exact p1
  · rw [hv] at h
    exact hinit _ _ v p1 (exec_ok h)

theorem loadConcepts_clean {cs : List (ConceptDesc α)} {m m' : FCM α} (hm : CleanReachable m)
    (h : loadConcepts cs m = .ok m') : CleanReachable m' := by
  induction cs generalizing m with
  | nil => cases h; exact hm
  | cons c cs ih =>
    simp only [loadConcepts] at h
    obtain ⟨m1, h1, h⟩ := exc_bind h
    exact ih (loadConcept_reach (P := CleanReachable) (fun a m1 e => .step (.addConcept c.id a) hm e)
      (fun m1 m2 v p e => .step (.initConcept c.id v true) p e) h1) h

theorem loadRelations_clean {rs : List (RelDesc α)} {m m' : FCM α} (hm : CleanReachable m)
    (h : loadRelations rs m = .ok m') : CleanReachable m' := by
  induction rs generalizing m with
  | nil => cases h; exact hm
  | cons r rs ih =>
    simp only [loadRelations] at h
    obtain ⟨m1, h1, h⟩ := exc_bind h
    exact ih (.step (.addRelation r.origin r.destiny r.weight) hm (exec_ok h1)) h

/-- C83: whatever the document, a loaded map is one that a client can build through the API without any exception, so
everything proved about such maps holds of loaded maps. -/
theorem C83_api {d : MapDesc α} {m : FCM α} (h : fromJson d = .ok m) : CleanReachable m := by
  obtain ⟨mi, df, mem, af, m0, cs, rs, m1, h1, h2, h3, h4, h5, h6, h7, h8, h9⟩ := fromJson_ok h
  exact loadRelations_clean (loadConcepts_clean (.step (.assignWeight (d.weight.getD (lit 1))) (.new h5) rfl) h8) h9

theorem addConcept_keys {m m' : FCM α} {c : String} {a : ConceptArgs α} (h : FCM.addConcept c a m = (.ok (), m')) {k : String}
    (hk : k ∈ m'.topology.keys) : k = c ∨ k ∈ m.topology.keys := by
  unfold FCM.addConcept at h
  simp only at h
  split at h
  · cases h
  · cases h
    exact ((Dict.mem_keys_set _ _ _ _).1 hk).symm

theorem initConcept_keys {m m' : FCM α} {c : String} {v : α} (h : FCM.initConcept c v true m = (.ok (), m')) {k : String}
    (hk : k ∈ m'.topology.keys) : k = c ∨ k ∈ m.topology.keys := by
  unfold FCM.initConcept at h
  split at h
  · simp at h
  · split at h
    · cases h
    · split at h
      · split at h
        · cases h
        · split at h
          · cases h
          · cases h; exact ((Dict.mem_keys_set _ _ _ _).1 hk).symm
      · cases h; exact ((Dict.mem_keys_set _ _ _ _).1 hk).symm

theorem loadConcepts_careful {cs : List (ConceptDesc α)} {m m' : FCM α} (hm : CarefulReachable m)
    (hn : (cs.map (·.id)).Nodup) (hd : ∀ c ∈ cs, c.id ∉ m.topology.keys)
    (h : loadConcepts cs m = .ok m') : CarefulReachable m' := by
  induction cs generalizing m with
  | nil => cases h; exact hm
  | cons c cs ih =>
    simp only [loadConcepts] at h
    obtain ⟨m1, h1, h⟩ := exc_bind h
    rw [List.map_cons, List.nodup_cons] at hn
    have key := loadConcept_reach (P := fun m2 => CarefulReachable m2 ∧ ∀ k ∈ m2.topology.keys, k = c.id ∨ k ∈ m.topology.keys)
      (fun a m1 e => ⟨by
          have := CarefulReachable.step (.addConcept c.id a) hm (hd c (by simp))
          have e' : ((Op.addConcept c.id a).run m).2 = m1 := congrArg Prod.snd e
          rwa [e'] at this, fun k hk => addConcept_keys e hk⟩)
      (fun m1 m2 v p e => ⟨by
          have := CarefulReachable.step (.initConcept c.id v true) p.1 trivial
          have e' : ((Op.initConcept c.id v true).run m1).2 = m2 := congrArg Prod.snd e
          rwa [e'] at this, fun k hk => (initConcept_keys e hk).elim .inl (p.2 k)⟩) h1
    refine ih key.1 hn.2 (fun x hx hk => ?_) h
    rcases key.2 _ hk with e | e
    · exact hn.1 (by rw [← e]; exact List.mem_map_of_mem hx)
    · exact hd x (by simp [hx]) e

theorem loadRelations_careful {rs : List (RelDesc α)} {m m' : FCM α} (hm : CarefulReachable m)
    (h : loadRelations rs m = .ok m') : CarefulReachable m' := by
  induction rs generalizing m with
  | nil => cases h; exact hm
  | cons r rs ih =>
    simp only [loadRelations] at h
    obtain ⟨m1, h1, h⟩ := exc_bind h
    have e := exec_ok h1
    have := CarefulReachable.step (.addRelation r.origin r.destiny r.weight) hm (congrArg Prod.fst e)
    have e' : ((Op.addRelation r.origin r.destiny r.weight).run m).2 = m1 := congrArg Prod.snd e
    rw [e'] at this
    exact ih this h

/-- A document with distinct ids is loaded without adding a concept twice. -/
theorem C83_careful {d : MapDesc α} {m : FCM α} (h : fromJson d = .ok m)
    (hn : ∀ cs, d.concepts = some cs → (cs.map (·.id)).Nodup) : CarefulReachable m := by
  obtain ⟨mi, df, mem, af, m0, cs, rs, m1, h1, h2, h3, h4, h5, h6, h7, h8, h9⟩ := fromJson_ok h
  refine loadRelations_careful (loadConcepts_careful
    (m := { m0 with weight := d.weight.getD (lit 1) }) ?_ (hn cs h6) ?_ h8) h9
  · exact CarefulReachable.step (.assignWeight (d.weight.getD (lit 1))) (.new h5) trivial
  · intro c _
    rw [(new_empty h5).1]
    simp [Dict.keys]

theorem jsonArgs_writable {a b : Args α} (h : jsonArgs a = .ok b) : Writable a := by
  unfold jsonArgs at h
  split at h
  · cases h
  · rename_i hn
    intro p hp xs e
    apply hn
    rw [List.any_eq_true]
    exact ⟨p, hp, by rw [e]⟩

/-- While concepts are loaded, the trajectories are listed in the order of the concepts, and nothing is prepared. -/
theorem loadConcepts_order {cs : List (ConceptDesc α)} {m m' : FCM α}
    (hd : m.default = stdDefault m.memInfluence m.mapFn) (hk : m.execution.keys = m.topology.keys)
    (hp : m.prepared = false) (h : loadConcepts cs m = .ok m') :
    m'.execution.keys = m'.topology.keys ∧ m'.prepared = false := by
  induction cs generalizing m with
  | nil => cases h; exact ⟨hk, hp⟩
  | cons c cs ih =>
    simp only [loadConcepts] at h
    obtain ⟨m1, h1, h⟩ := exc_bind h
    obtain ⟨ty, g, f, custom, vect, hacc, rfl⟩ := loadConcept_ok hd h1
    refine ih ?_ ?_ rfl h
    · exact hd
    · show (m.execution.set _ _).keys = (m.topology.set _ _).keys
      rw [Dict.keys_set, Dict.keys_set, hk]

theorem reloaded_eq {m : FCM α} (ht : m.topology.map (fun p => (p.1, { p.2 with aux := [] })) = m.topology)
    (hx : m.topology.map (fun p => (p.1, [p.2.value])) = m.execution) (h1 : m.iterations = 1) (h2 : m.prepared = false)
    (h3 : m.cache = ⟨[], [], [], [], [], []⟩) (h4 : m.stateVector = [])
    (h5 : m.default = stdDefault m.memInfluence m.mapFn) (h6 : m.debug = true) (h7 : m.fitInclination = none) :
    m.reloaded = m := by
  unfold FCM.reloaded
  rw [ht, hx]
  cases m
  simp only at h1 h2 h3 h4 h5 h6 h7
  subst h1 h2 h3 h4 h5 h6 h7
  rfl

/-- C83: exporting a loaded map and loading it again gives the very same object: only the first round trip loses
something. -/
theorem C83_idempotent {m m' : FCM α} {d : MapDesc α} (hi : Inv m) (h : m.toJson = .ok d) (h' : fromJson d = .ok m') :
    ∃ d', m'.toJson = .ok d' ∧ fromJson d' = .ok m' := by
  obtain ⟨cs, hcs, rfl, hw⟩ := toJson_ok h
  have hids : cs.map (·.id) = m.topology.keys := by
    obtain ⟨cs2, e1, e2⟩ := toJson_concepts h
    cases e1; exact e2
  have hnd : (cs.map (·.id)).Nodup := by rw [hids]; exact hi.tnd
  have hclean := C83_api h'
  have hcareful := C83_careful h' (fun cs' e => by cases e; exact hnd)
  obtain ⟨mi, df, mem, af, m0, cs', rs, m1, h1, h2, h3, h4, h5, h6, h7, h8, h9⟩ := fromJson_ok h'
  cases h6
  obtain ⟨df', af', hdf, haf, e0⟩ := new_ok h5
  have hd0 : ({ m0 with weight := (docOf m cs (if m.mapFn.args = [] then none else some m.mapFn.args)).weight.getD (lit 1) } : FCM α).default =
      stdDefault m0.memInfluence m0.mapFn := by rw [e0]
  have hL := loadConcepts_ok hd0 (by rw [e0]) h8
  have hO := loadConcepts_order hd0 (by rw [e0]; rfl) (by rw [e0]) h8
  have hf1 : m1.fitInclination = none := by rw [hL.eq, e0]
  rw [loadRelations_ok hf1] at h9
  have hA := addAll_added hf1 (rs.map fun r => (r.origin, r.destiny, r.weight))
  have hprep := addAll_prepared hO.2 (rs.map fun r => (r.origin, r.destiny, r.weight))
  generalize addAll (rs.map fun r => (r.origin, r.destiny, r.weight)) m1 = m2 at h9 hA hprep
  cases h9
  have em : m'.memInfluence = m0.memInfluence := by rw [hA.eq, hL.eq]
  have ef : m'.mapFn = m0.mapFn := by rw [hA.eq, hL.eq]
  have hargs : m0.mapFn.args = m.mapFn.args := by
    rw [e0]
    show (if m.mapFn.args = [] then none else some m.mapFn.args).getD [] = m.mapFn.args
    split
    · rename_i e; rw [e]; rfl
    · rfl
  have hname : m0.mapFn.name = m.mapFn.name := by
    rw [e0]
    exact (Option.some.inj (h4 : some m.mapFn.name = some af)).symm
  have node : ∀ c n, m'.topology.get? c = some n → ∃ x ∈ cs, ∃ ty g f custom vect,
      Accepts m0.mapFn x ty g f custom vect ∧ x.id = c ∧
      n = { loadedNode m0.memInfluence x ty g f custom vect with arcs := n.arcs, actvSum := n.actvSum } ∧
      m1.execution.get? c = some [n.value] := by
    intro c n hn
    have hmem : c ∈ (cs.map (·.id)).eraseDups := by
      rw [← hL.keys, ← hA.keys]; exact Dict.mem_keys_of_get? hn
    rw [List.mem_eraseDups, List.mem_map] at hmem
    obtain ⟨x, hx, rfl⟩ := hmem
    obtain ⟨pre, post, e⟩ := List.append_of_mem hx
    have hpost : ∀ y ∈ post, y.id ≠ x.id := by
      intro y hy he
      rw [e, List.map_append, List.map_cons, List.nodup_append, List.nodup_cons] at hnd
      exact hnd.2.1.1 (by rw [← he]; exact List.mem_map_of_mem hy)
    obtain ⟨ty, g, f, custom, vect, hacc, hget, hexe⟩ := hL.node pre x post e hpost
    obtain ⟨n', hn', en⟩ := hA.node _ _ hget
    rw [hn] at hn'
    cases hn'
    exact ⟨x, hx, ty, g, f, custom, vect, hacc, rfl, by rw [en], by rw [hexe, en]; rfl⟩
  have hplain : ∀ c n, m'.topology.get? c = some n → Plain m' n := by
    intro c n hn
    obtain ⟨x, hx, ty, g, f, custom, vect, hacc, -, en, -⟩ := node c n hn
    obtain ⟨p, hp, hxj⟩ := mapM_ok_mem hcs hx
    obtain ⟨ty', um, f', -, -, -, cf, ca, ad, ex, hcase⟩ := conceptToJson_ok hxj
    have hg : g = .kosko := by
      have := hacc.exec
      rw [ex] at this
      exact (Option.some.inj this).symm
    refine ⟨by rw [en, ex]; rfl, by rw [en, ex, hg]; rfl, ?_, ?_, ?_, ?_⟩
    · rw [en]
      by_cases hty : ty = "DECISION"
      · exact .inr (by simp [loadedNode, hty])
      · exact .inl (by simp [loadedNode, hty])
    · rw [en]; exact ⟨rfl, rfl, rfl⟩
    · rw [en, ex, em]; rfl
    · have hfz : f.name ≠ "fuzzy" := by
        rcases hacc.value with hv | hv
        · rw [ex] at hv; cases hv
        · exact hv
      refine ⟨f, by rw [en]; rfl, hfz, ?_⟩
      have hum : n.useMapFunc = some (!custom) := by rw [en]; rfl
      rw [hum, ef]
      rcases hcase with ⟨-, rfl, rfl, rfl⟩ | ⟨-, rfl, -, rfl, fa, -, rfl⟩ | ⟨hne, rfl, -, rfl, rfl, hj⟩
      · obtain ⟨k1, k2⟩ := hacc.chosen.other (by rw [ex]) (by rw [ex]; rfl)
        refine ⟨?_, .inl ⟨k1, by rw [k2]; rfl⟩⟩
        rw [k1, hargs]
        exact jsonArgs_writable hw
      · obtain ⟨k1, -⟩ := hacc.chosen.dict _ (by rw [ex])
        exact absurd (by rw [k1]) hfz
      · obtain ⟨-, k2, k3, k4⟩ := hacc.chosen.named (by rw [ex]) f'.name (by rw [ex]; rfl)
        refine ⟨?_, .inr ⟨by rw [k2, hname]; exact hne, by rw [k4]; rfl⟩⟩
        rw [k3, ex]
        show Writable ((if f'.args = [] then none else some f'.args).getD [])
        split
        · intro p hp; cases hp
        · exact jsonArgs_writable hj
  obtain ⟨d', hd', hr⟩ := C28_roundtrip_partial hclean hcareful (by rw [ef, hargs]; exact jsonArgs_writable hw) hplain
  refine ⟨d', hd', ?_⟩
  rw [hr]
  have ht : m'.topology.map (fun p => (p.1, { p.2 with aux := [] })) = m'.topology := by
    conv => rhs; rw [← List.map_id m'.topology]
    apply List.map_congr_left
    rintro ⟨k, n⟩ hp
    obtain ⟨x, hx, ty, g, f, custom, vect, hacc, -, en, -⟩ :=
      node k n (Dict.get?_of_mem hclean.clean.inv.tnd hp)
    simp only [id]
    rw [en]
    rfl
  have hx : m'.topology.map (fun p => (p.1, [p.2.value])) = m'.execution := by
    have hexe : m'.execution = m1.execution := by rw [hA.eq]
    have hk : Dict.keys (m'.topology.map (fun p => (p.1, [p.2.value]))) = m'.topology.keys := by
      simp [Dict.keys]
    refine Dict.ext_get? _ _ ?_ ?_ ?_
    · rw [hk, hexe, hO.1, hA.keys]
    · rw [hk]; exact hclean.clean.inv.tnd
    · intro k
      have hg := get?_map_inj (ρ := id) (fun n : Node α => [n.value]) Function.injective_id m'.topology k
      rw [hexe]
      refine hg.trans ?_
      rcases hk' : m'.topology.get? k with _ | n
      · rcases hx' : m1.execution.get? k with _ | xs
        · rfl
        · have : k ∈ m'.topology.keys := by
            rw [hA.keys, ← hO.1]; exact Dict.mem_keys_of_get? hx'
          obtain ⟨n, hn⟩ := Dict.exists_get?_of_mem this
          rw [hn] at hk'
          cases hk'
      · obtain ⟨_, _, _, _, _, _, _, _, _, _, he⟩ := node k n hk'
        rw [he]
        rfl
  rw [reloaded_eq ht hx (by rw [hA.eq, hL.eq, e0]) hprep (by rw [hA.eq, hL.eq, e0]) (by rw [hA.eq, hL.eq, e0])
    (by rw [hA.eq, hL.eq, e0]) (by rw [hA.eq, hL.eq, e0]) (by rw [hA.eq, hL.eq, e0])]
end

/-- `map1` (a Papageorgius concept, one without memory, cycles) loses properties in the first round trip, nothing in
the second. -/
example : ∃ d m' d', Ex.map1.toJson = .ok d ∧ fromJson d = .ok m' ∧ m' ≠ Ex.map1 ∧ m'.toJson = .ok d' ∧ fromJson d' = .ok m' := by
  have hj : ∃ d m', Ex.map1.toJson = .ok d ∧ fromJson d = .ok m' ∧ m' ≠ Ex.map1 := by
    have h1 : ((Ex.map1.toJson.toOption).bind fun d => (fromJson d).toOption).isSome = true ∧
        ((Ex.map1.toJson.toOption).bind fun d => (fromJson d).toOption) ≠ some Ex.map1 := by decide +kernel
    rcases hx : Ex.map1.toJson with e | d
    · rw [hx] at h1; cases h1.1
    · rcases hy : fromJson d with e | m'
      · rw [hx] at h1
        have : ((Except.ok d : Except Err (MapDesc ℚ)).toOption.bind fun d => (fromJson d).toOption) = none := by
          show (fromJson d).toOption = none
          rw [hy]; rfl
        rw [this] at h1; cases h1.1
      · refine ⟨d, m', rfl, hy, fun e => h1.2 ?_⟩
        rw [hx]
        show (fromJson d).toOption = _
        rw [hy, e]; rfl
  obtain ⟨d, m', h1, h2, h3⟩ := hj
  obtain ⟨d', h4, h5⟩ := C83_idempotent Ex.map1_reachable.inv h1 h2
  exact ⟨d, m', d', h1, h2, h3, h4, h5⟩

/-- A hand-written document: two concepts, one initial value, one relation. -/
def docR : MapDesc ℚ :=
  { maxIter := some 10, decisionFunction := some "LAST", memoryInfluence := some false,
    activationFunction := some "saturation",
    concepts := some [{ id := "a", type := some "SIMPLE", activation := some (1/2) },
      { id := "b", type := some "DECISION" }],
    relations := some [⟨"a", "b", 3/4⟩] }

example : ∃ m : FCM ℚ, fromJson docR = .ok m ∧ CleanReachable m ∧ CarefulReachable m ∧ m.topology.keys = ["a", "b"] := by
  have h1 : (fromJson docR).toOption.map (fun m => m.topology.keys) = some ["a", "b"] := by decide +kernel
  rcases h : fromJson docR with e | m
  · rw [h] at h1; cases h1
  · rw [h] at h1
    exact ⟨m, rfl, C83_api h, C83_careful h (fun cs e => by cases e; decide), Option.some.inj h1⟩

end PyFCM
