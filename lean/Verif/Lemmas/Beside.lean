import Verif.Lemmas.Built
/-
Learning into a map that already has concepts: the methods `build_fcm` calls work beside them.
-/
namespace PyFCM
open Arith

set_option linter.unusedSectionVars false

variable {α : Type} [Arith α]

namespace Dict
variable {β : Type}

theorem get?_append (d e : Dict β) {k : String} (h : k ∉ d.keys) : get? (d ++ e) k = get? e k := by
  induction d with
  | nil => rfl
  | cons p d ih =>
    obtain ⟨h1, h2⟩ := not_or.1 (fun h' => h (List.mem_cons.2 h'))
    rw [List.cons_append, get?_cons, if_neg (Ne.symm h1), ih h2]

theorem set_append (d e : Dict β) {k : String} (v : β) (h : k ∉ d.keys) : set (d ++ e) k v = d ++ set e k v := by
  induction d with
  | nil => rfl
  | cons p d ih =>
    obtain ⟨h1, h2⟩ := not_or.1 (fun h' => h (List.mem_cons.2 h'))
    obtain ⟨a, b⟩ := p
    show (if a = k then _ else _) = _
    rw [if_neg (Ne.symm h1)]
    show (a, b) :: set (d ++ e) k v = _
    rw [ih h2]
    rfl

theorem modify_append (d e : Dict β) {k : String} (f : β → β) (h : k ∉ d.keys) : modify (d ++ e) k f = d ++ modify e k f := by
  unfold modify
  rw [get?_append d e h]
  cases e.get? k with
  | none => rfl
  | some v => exact set_append d e _ h

theorem has_append (d e : Dict β) {k : String} (h : k ∉ d.keys) : has (d ++ e) k = has e k := by
  unfold has
  rw [get?_append d e h]

end Dict

/-- The concepts, relations and trajectories of `o` followed by those of `m`, with the settings of `m`. -/
def FCM.beside (o m : FCM α) : FCM α :=
  { m with topology := o.topology ++ m.topology, arcList := o.arcList ++ m.arcList, execution := o.execution ++ m.execution }

/-- `c` is no concept of `o`. -/
def Foreign (o : FCM α) (c : String) : Prop := c ∉ o.topology.keys ∧ c ∉ o.execution.keys

theorem addConcept_beside {o : FCM α} {c : String} (h : Foreign o c) (a : ConceptArgs α) (m : FCM α) :
    FCM.addConcept c a (o.beside m) = ((FCM.addConcept c a m).1, o.beside (FCM.addConcept c a m).2) := by
  unfold FCM.addConcept
  dsimp only [FCM.beside]
  generalize buildNode m.default a (freshNode (a.isActive.getD m.default.active)) = q
  obtain ⟨r, n⟩ := q
  cases r with
  | error e => dsimp only; rw [Dict.set_append _ _ _ h.1]
  | ok u => dsimp only; rw [Dict.set_append _ _ _ h.1, Dict.set_append _ _ _ h.2]

theorem addRelation_beside {o : FCM α} {a b : String} (ha : Foreign o a) (hb : Foreign o b) (w : α) (m : FCM α) :
    FCM.addRelation a b w (o.beside m) = ((FCM.addRelation a b w m).1, o.beside (FCM.addRelation a b w m).2) := by
  unfold FCM.addRelation
  dsimp only [FCM.beside]
  rw [Dict.has_append _ _ ha.1, Dict.has_append _ _ hb.1]
  split
  · rw [Dict.modify_append _ _ _ ha.1, Dict.modify_append _ _ _ hb.1, Dict.get?_append _ _ hb.1]
    cases m.fitInclination with
    | none => simp only [List.append_assoc]
    | some t =>
      dsimp only
      split
      · rfl
      · split
        · rfl
        · simp only [Dict.set_append _ _ _ hb.1, List.append_assoc]
  · rfl

/-- The generator working on a map with the concepts of `o` in front. -/
def Gen.beside (o : FCM α) (g : Gen α) : Gen α := { g with fcm := o.beside g.fcm }

/-- The concepts of the features are no concepts of `o`. -/
def FeatForeign (o : FCM α) (g : Gen α) : Prop := ∀ p ∈ g.features, ∀ c ∈ p.2.names, Foreign o c

/-- The method does the same beside the concepts of `o`, whether or not it raises. -/
def Beside {β : Type} (o : FCM α) (x : PyM (Gen α) β) : Prop :=
  ∀ g, FeatForeign o g → x (g.beside o) = ((x g).1, (x g).2.beside o) ∧ FeatForeign o (x g).2

namespace Beside
variable {β γ ι : Type} {o : FCM α}

theorem pure (b : β) : Beside o (Pure.pure b : PyM (Gen α) β) := fun _ h => ⟨rfl, h⟩
theorem raise (e : Err) : Beside o (PyM.raise e : PyM (Gen α) β) := fun _ h => ⟨rfl, h⟩
theorem lift (x : Except Err β) : Beside o (PyM.lift x : PyM (Gen α) β) := fun _ h => ⟨rfl, h⟩

theorem bind {x : PyM (Gen α) β} {f : β → PyM (Gen α) γ} (hx : Beside o x) (hf : ∀ b, Beside o (f b)) :
    Beside o (x >>= f) := by
  intro g hg
  obtain ⟨h1, h2⟩ := hx g hg
  rw [PyM.run_bind, PyM.run_bind, h1]
  rcases hr : x g with ⟨r, g'⟩
  rw [hr] at h2
  cases r with
  | error e => exact ⟨rfl, h2⟩
  | ok b => exact hf b g' h2

theorem ite {c : Prop} [Decidable c] {x y : PyM (Gen α) β} (hx : c → Beside o x) (hy : ¬ c → Beside o y) :
    Beside o (if c then x else y) := by
  split
  · exact hx ‹_›
  · exact hy ‹_›

theorem forEach {xs : List ι} {f : ι → PyM (Gen α) Unit} (h : ∀ x ∈ xs, Beside o (f x)) : Beside o (PyM.forEach xs f) := by
  induction xs with
  | nil => exact fun g hg => ⟨rfl, hg⟩
  | cons x xs ih =>
    intro g hg
    obtain ⟨h1, h2⟩ := h x (by simp) g hg
    simp only [PyM.forEach, h1]
    rcases hr : f x g with ⟨r, g'⟩
    rw [hr] at h2
    cases r with
    | error e => exact ⟨rfl, h2⟩
    | ok b => exact ih (fun y hy => h y (by simp [hy])) g' h2

theorem onFcm {p : PyM (FCM α) Unit} (h : ∀ m, p (o.beside m) = ((p m).1, o.beside (p m).2)) : Beside o (Gen.onFcm p) := by
  intro g hg
  unfold Gen.onFcm
  show (match p (o.beside g.fcm) with | (r, m) => (r, { g.beside o with fcm := m })) = _ ∧ _
  rw [h g.fcm]
  exact ⟨rfl, hg⟩

theorem concept {c : String} (h : Foreign o c) (a : ConceptArgs α) : Beside o (Gen.onFcm (FCM.addConcept c a)) :=
  onFcm (addConcept_beside h a)

theorem relation {a b : String} (ha : Foreign o a) (hb : Foreign o b) (w : α) : Beside o (Gen.onFcm (FCM.addRelation a b w)) :=
  onFcm (addRelation_beside ha hb w)

/-- Reading the state, of which only the part besides the map matters. -/
theorem getState {k : Gen α → PyM (Gen α) β} (hk : ∀ g, k (g.beside o) = k g) (h : ∀ g, FeatForeign o g → Beside o (k g)) :
    Beside o (PyM.get >>= k) := by
  intro g hg
  show k (g.beside o) (g.beside o) = ((k g g).1, (k g g).2.beside o) ∧ FeatForeign o (k g g).2
  rw [hk]
  exact h g hg g hg

theorem needFeature {f : String} {k : Feature α → PyM (Gen α) β} {g : Gen α} (hg : FeatForeign o g)
    (h : ∀ F, (∀ c ∈ F.names, Foreign o c) → Beside o (k F)) : Beside o (PyM.lift (need f (g.features.get? f)) >>= k) := by
  cases hF : g.features.get? f with
  | none => exact fun _ hg' => ⟨rfl, hg'⟩
  | some F => exact fun g' hg' => h F (fun c hc => hg _ (Dict.get?_mem hF) c hc) g' hg'

theorem mem_set_cases {d : Dict (Feature α)} {p : String × Feature α} {f : String} {F : Feature α} (hp : p ∈ d.set f F) :
    p ∈ d ∨ p = (f, F) := by
  induction d with
  | nil => exact .inr (List.mem_singleton.1 hp)
  | cons q d ih =>
    obtain ⟨a, b⟩ := q
    unfold Dict.set at hp
    split at hp
    · rcases List.mem_cons.1 hp with hp | hp
      · exact .inr hp
      · exact .inl (List.mem_cons_of_mem _ hp)
    · rcases List.mem_cons.1 hp with hp | hp
      · exact .inl (by rw [hp]; exact List.mem_cons_self ..)
      · exact (ih hp).imp (List.mem_cons_of_mem _) id

theorem setFeature {f : String} {F : Feature α} (h : ∀ c ∈ F.names, Foreign o c) :
    Beside o (PyM.modify fun g : Gen α => { g with features := g.features.set f F }) := by
  intro g hg
  refine ⟨rfl, ?_⟩
  intro p hp c hc
  rcases mem_set_cases hp with h' | rfl
  · exact hg p h' c hc
  · exact h c hc

end Beside

open Beside

/-- No concept of `o` is named like a value of the column. -/
def NoClash (cfg : GenConf α) (o : FCM α) (feat : String) : Prop := ∀ v, Foreign o (nameConcept cfg feat v)

theorem genContinuousOne_beside {o : FCM α} {cfg : GenConf α} {feat : String} (h : NoClash cfg o feat) (type : String)
    (data vl : List α) (k : Nat) (memb : List α) : Beside o (genContinuousOne cfg feat type data vl k memb) := by
  unfold genContinuousOne
  exact (concept (h _) _).bind fun _ => (Beside.lift _).bind fun _ => Beside.pure _

theorem genContinuousLoop_beside {o : FCM α} {cfg : GenConf α} {feat : String} (h : NoClash cfg o feat) (type : String)
    (data vl : List α) : ∀ n k ms, Beside o (genContinuousLoop cfg feat type data vl n k ms)
  | 0, _, _ => Beside.pure _
  | _ + 1, _, [] => Beside.raise _
  | n + 1, k, memb :: ms => (genContinuousOne_beside h type data vl k memb).bind fun _ =>
      (genContinuousLoop_beside h type data vl n (k + 1) ms).bind fun _ => Beside.pure _

theorem genContinuousLoop_names {cfg : GenConf α} {feat type : String} {data vl : List α} :
    ∀ {n k ms} {g g' : Gen α} {rs}, genContinuousLoop cfg feat type data vl n k ms g = (.ok rs, g') →
      ∀ r ∈ rs, ∃ v, r.1 = nameConcept cfg feat v := by
  intro n
  induction n with
  | zero => intro k ms g g' rs h r hr; cases h; cases hr
  | succ n ih =>
    intro k ms g g' rs h r hr
    cases ms with
    | nil => cases h
    | cons memb ms =>
      simp only [genContinuousLoop] at h
      rw [PyM.run_bind] at h
      split at h
      · rename_i r1 g1 h1
        rw [PyM.run_bind] at h
        split at h
        · rename_i rs1 g2 h2
          cases h
          rcases List.mem_cons.1 hr with hr | hr
          · subst hr
            unfold genContinuousOne at h1
            rw [PyM.run_bind] at h1
            split at h1
            · rw [PyM.run_bind] at h1
              split at h1
              · cases h1; exact ⟨_, rfl⟩
              · cases h1
            · cases h1
          · exact ih h2 r hr
        · cases h
      · cases h

theorem Beside.bindOk {β γ : Type} {o : FCM α} {x : PyM (Gen α) β} {f : β → PyM (Gen α) γ} {Q : β → Prop} (hx : Beside o x)
    (hq : ∀ g g' b, x g = (.ok b, g') → Q b) (hf : ∀ b, Q b → Beside o (f b)) : Beside o (x >>= f) := by
  intro g hg
  obtain ⟨h1, h2⟩ := hx g hg
  rw [PyM.run_bind, PyM.run_bind, h1]
  rcases hr : x g with ⟨r, g'⟩
  rw [hr] at h2
  cases r with
  | error e => exact ⟨rfl, h2⟩
  | ok b => exact hf b (hq _ _ _ hr) g' h2

theorem genContinuous_beside {o : FCM α} {cfg : GenConf α} {feat : String} (h : NoClash cfg o feat) (x : Ext α)
    (ts : List String) (data : List α) : Beside o (genContinuous cfg x ts feat data) := by
  unfold genContinuous
  refine (Beside.lift _).bind fun p => ?_
  obtain ⟨n, vl, memb⟩ := p
  refine (genContinuousLoop_beside h _ data vl n 0 memb).bindOk
    (Q := fun rs => ∀ r ∈ rs, ∃ v, r.1 = nameConcept cfg feat v) (fun g g' b hb => genContinuousLoop_names hb) fun rs hrs => ?_
  apply setFeature
  intro c hc
  obtain ⟨r, hr, rfl⟩ := List.mem_map.1 hc
  obtain ⟨v, hv⟩ := hrs r hr
  rw [hv]
  exact h v

theorem genDiscreteLoop_beside {o : FCM α} (type : String) : ∀ {ns : List String}, (∀ c ∈ ns, Foreign o c) →
    Beside o (genDiscreteLoop type ns : PyM (Gen α) Unit)
  | [], _ => Beside.pure _
  | n :: ns, h => (concept (h n (by simp)) _).bind fun _ =>
      genDiscreteLoop_beside type (ns := ns) fun c hc => h c (List.mem_cons_of_mem _ hc)

theorem genDiscrete_beside {o : FCM α} {cfg : GenConf α} {feat : String} (h : NoClash cfg o feat) (x : Ext α)
    (ts : List String) (col : Column α) : Beside o (genDiscrete cfg x ts feat col) := by
  unfold genDiscrete
  have hn : ∀ c ∈ col.uniqCells.map (fun c => nameConcept cfg feat (c.text x)), Foreign o c := by
    intro c hc
    obtain ⟨v, -, rfl⟩ := List.mem_map.1 hc
    exact h _
  exact (genDiscreteLoop_beside _ hn).bind fun _ => setFeature hn

theorem innerRow_beside {o : FCM α} (e : α) {a : String} (ha : Foreign o a) : ∀ {bs : List String}, (∀ b ∈ bs, Foreign o b) →
    Beside o (innerRow e a bs)
  | [], _ => Beside.pure _
  | b :: bs, h => (relation ha (h b (by simp)) e).bind fun _ => (relation (h b (by simp)) ha e).bind fun _ =>
      innerRow_beside e ha (bs := bs) fun c hc => h c (List.mem_cons_of_mem _ hc)

theorem innerLoop_beside {o : FCM α} (e : α) : ∀ {ns : List String}, (∀ b ∈ ns, Foreign o b) → Beside o (innerLoop e ns)
  | [], _ => Beside.pure _
  | a :: as, h => (innerRow_beside e (h a (by simp)) fun c hc => h c (List.mem_cons_of_mem _ hc)).bind fun _ =>
      innerLoop_beside e (ns := as) fun c hc => h c (List.mem_cons_of_mem _ hc)

theorem innerRelations_beside (o : FCM α) (cfg : GenConf α) (feat : String) : Beside o (innerRelations cfg feat) := by
  unfold innerRelations
  exact Beside.ite (fun _ => Beside.pure _) fun _ => getState (fun _ => rfl) fun g hg => needFeature hg fun F hF => innerLoop_beside _ hF

theorem defWeight_beside {o : FCM α} (cfg : GenConf α) {a b : String} (ha : Foreign o a) (hb : Foreign o b) (s : α)
    (c : Coef α) : Beside o (defWeight cfg a b s c) := by
  unfold defWeight
  refine (Beside.lift _).bind fun e => Beside.ite (fun _ => ?_) fun _ => Beside.pure _
  exact (Beside.lift _).bind fun v => Beside.ite (fun _ => Beside.pure _) fun _ => relation ha hb _

theorem runIf_beside {o : FCM α} (b : Bool) {x : PyM (Gen α) Unit} (h : Beside o x) : Beside o (runIf b x) := by
  unfold runIf
  exact Beside.ite (fun _ => h) fun _ => Beside.pure _

theorem pairRelation_beside {o : FCM α} (cfg : GenConf α) (fa fb : Feature α) {pa pb : String × List α}
    (ha : Foreign o pa.1) (hb : Foreign o pb.1) : Beside o (pairRelation cfg fa fb pa pb) := by
  unfold pairRelation
  split
  · exact Beside.raise _
  · refine (Beside.lift _).bind fun s1 => (Beside.lift _).bind fun s2 => Beside.ite (fun _ => ?_) fun _ =>
      Beside.ite (fun _ => ?_) fun _ => Beside.ite (fun _ => ?_) fun _ => ?_
    · exact (defWeight_beside cfg ha hb _ _).bind fun _ => defWeight_beside cfg hb ha _ _
    · exact (Beside.lift _).bind fun p => (Beside.lift _).bind fun q =>
        (runIf_beside _ (defWeight_beside cfg ha hb _ _)).bind fun _ => runIf_beside _ (defWeight_beside cfg hb ha _ _)
    · exact defWeight_beside cfg hb ha _ _
    · exact defWeight_beside cfg ha hb _ _

theorem twoFeat_beside {o : FCM α} (cfg : GenConf α) {fa fb : Feature α} (ha : ∀ c ∈ fa.names, Foreign o c)
    (hb : ∀ c ∈ fb.names, Foreign o c) : Beside o (twoFeat cfg fa fb) := by
  unfold twoFeat
  exact Beside.forEach fun pa hpa => Beside.forEach fun pb hpb =>
    pairRelation_beside cfg fa fb (ha _ (List.of_mem_zip hpa).1) (hb _ (List.of_mem_zip hpb).1)

theorem relateWith_beside (o : FCM α) (cfg : GenConf α) (feat other : String) : Beside o (relateWith cfg feat other) := by
  unfold relateWith
  refine Beside.ite (fun _ => Beside.pure _) fun _ => ?_
  refine getState (fun _ => rfl) fun g hg => needFeature hg fun A hA => needFeature hg fun B hB => ?_
  have ht : Beside o (twoFeat cfg A B) := twoFeat_beside cfg hA hB
  exact Beside.ite (fun _ => ht) fun _ => Beside.ite (fun _ => Beside.pure _) fun _ => ht

theorem buildFeature_beside {o : FCM α} {cfg : GenConf α} {feat : String} (h : NoClash cfg o feat) (x : Ext α)
    (ts : List String) (col : Column α) : Beside o (buildFeature cfg x ts feat col) := by
  have hrest : Beside o (do
      innerRelations cfg feat
      PyM.modify fun g : Gen α => { g with processed := setAdd feat g.processed }
      let g ← PyM.get
      PyM.forEach (x.order g.processed) (relateWith cfg feat) : PyM (Gen α) Unit) := by
    refine (innerRelations_beside o cfg feat).bind fun _ => ?_
    refine Beside.bind (β := Unit) (fun g hg => ⟨rfl, hg⟩) fun _ => ?_
    exact getState (fun _ => rfl) fun g _ => Beside.forEach fun y _ => relateWith_beside o cfg feat y
  unfold buildFeature
  cases col with
  | strs xs => exact (genDiscrete_beside h x ts _).bind fun _ => hrest
  | bools xs => exact (genDiscrete_beside h x ts _).bind fun _ => hrest
  | ints xs =>
    exact Beside.ite (c := cfg.inferType = true ∧ (Column.ints xs : Column α).uniqCells.length < 10)
      (fun _ => (genDiscrete_beside h x ts _).bind fun _ => hrest) fun _ => (genContinuous_beside h x ts _).bind fun _ => hrest
  | floats xs =>
    exact Beside.ite (c := cfg.inferType = true ∧ (Column.floats xs).uniqCells.length < 10)
      (fun _ => (genDiscrete_beside h x ts _).bind fun _ => hrest) fun _ => (genContinuous_beside h x ts _).bind fun _ => hrest

theorem buildFcm_beside {o : FCM α} {cfg : GenConf α} (x : Ext α) (ts : List String) :
    ∀ {cols : List (String × Column α)}, (∀ p ∈ cols, NoClash cfg o p.1) → Beside o (buildFcm cfg x ts cols)
  | [], _ => Beside.pure _
  | (f, col) :: rest, h => (buildFeature_beside (h (f, col) (by simp)) x ts col).bind fun _ =>
      buildFcm_beside x ts (cols := rest) fun p hp => h p (List.mem_cons_of_mem _ hp)

end PyFCM
