import Verif.Lemmas.Estimator
import Verif.Lemmas.Named
/-
Two runs of `build_fcm` on maps that differ only in the engine's private data; what the calls of an estimator leave
alone.
-/
namespace PyFCM
open Arith

set_option linter.unusedSectionVars false

variable {α : Type} [Arith α]

/-! ### Two runs side by side -/

/-- From related states the two runs give the same result; if they return, the states are related again. -/
def RelOk {σ β : Type} (R : σ → σ → Prop) (x : PyM σ β) : Prop :=
  ∀ s s', R s s' → (x s').1 = (x s).1 ∧ ∀ b, (x s).1 = .ok b → R (x s).2 (x s').2

namespace RelOk
variable {σ β γ ι : Type} {R : σ → σ → Prop}

theorem pure (b : β) : RelOk R (Pure.pure b : PyM σ β) := fun _ _ h => ⟨rfl, fun _ _ => h⟩
theorem raise (e : Err) : RelOk R (PyM.raise e : PyM σ β) := fun _ _ h => ⟨rfl, fun _ _ => h⟩
theorem lift (x : Except Err β) : RelOk R (PyM.lift x : PyM σ β) := fun _ _ h => ⟨rfl, fun _ _ => h⟩
theorem modify {f : σ → σ} (hf : ∀ s s', R s s' → R (f s) (f s')) : RelOk R (PyM.modify f) :=
  fun s s' h => ⟨rfl, fun _ _ => hf s s' h⟩

theorem bind {x : PyM σ β} {f : β → PyM σ γ} (hx : RelOk R x) (hf : ∀ b, RelOk R (f b)) : RelOk R (x >>= f) := by
  intro s s' h
  obtain ⟨h1, h2⟩ := hx s s' h
  rw [PyM.run_bind, PyM.run_bind]
  rcases hs : x s with ⟨_ | b, s1⟩ <;> rcases hs' : x s' with ⟨_ | b', s1'⟩ <;> rw [hs, hs'] at h1 <;> cases h1
  · exact ⟨rfl, fun _ h => by cases h⟩
  · have := h2 b (by rw [hs])
    rw [hs, hs'] at this
    exact hf b _ _ this

theorem getBind {f : σ → PyM σ γ} (hs : ∀ s s', R s s' → f s' = f s) (hf : ∀ s, RelOk R (f s)) :
    RelOk R (PyM.get >>= f) := by
  intro s s' h
  rw [PyM.run_bind, PyM.run_bind, PyM.run_get, PyM.run_get]
  dsimp only
  rw [hs s s' h]
  exact hf s s s' h

theorem ite {c : Prop} [Decidable c] {x y : PyM σ β} (hx : c → RelOk R x) (hy : ¬ c → RelOk R y) :
    RelOk R (if c then x else y) := by
  split
  · exact hx ‹_›
  · exact hy ‹_›

theorem forEach {xs : List ι} {f : ι → PyM σ Unit} (h : ∀ x ∈ xs, RelOk R (f x)) : RelOk R (PyM.forEach xs f) := by
  induction xs with
  | nil => exact fun _ _ h => ⟨rfl, fun _ _ => h⟩
  | cons x xs ih =>
    intro s s' hr
    obtain ⟨h1, h2⟩ := h x (by simp) s s' hr
    simp only [PyM.forEach]
    rcases hs : f x s with ⟨_ | ⟨⟩, s1⟩ <;> rcases hs' : f x s' with ⟨_ | ⟨⟩, s1'⟩ <;> rw [hs, hs'] at h1 <;> cases h1
    · exact ⟨rfl, fun _ h => by cases h⟩
    · have := h2 () (by rw [hs])
      rw [hs, hs'] at this
      exact ih (fun y hy => h y (by simp [hy])) _ _ this

end RelOk

/-- A relation of maps respected by the two operations that learning uses. -/
structure GenRel (R : FCM α → FCM α → Prop) : Prop where
  concept : ∀ c a, RelOk R (FCM.addConcept c a)
  relation : ∀ o d w, RelOk R (FCM.addRelation o d w)

/-- The generators have described the same features and their maps are related. -/
def OnMaps (R : FCM α → FCM α → Prop) (g g' : Gen α) : Prop :=
  g'.features = g.features ∧ g'.processed = g.processed ∧ R g.fcm g'.fcm

section
variable {R : FCM α → FCM α → Prop}

theorem onFcm_rel {p : PyM (FCM α) Unit} (h : RelOk R p) : RelOk (OnMaps R) (Gen.onFcm p) := by
  intro g g' hg
  obtain ⟨h1, h2⟩ := h g.fcm g'.fcm hg.2.2
  exact ⟨h1, fun b hb => ⟨hg.1, hg.2.1, h2 b hb⟩⟩

theorem modify_rel {f : Gen α → Gen α} (h1 : ∀ g g' : Gen α, g'.features = g.features → g'.processed = g.processed →
    (f g').features = (f g).features ∧ (f g').processed = (f g).processed) (h2 : ∀ g, (f g).fcm = g.fcm) :
    RelOk (OnMaps R) (PyM.modify f) :=
  RelOk.modify fun g g' h => ⟨(h1 g g' h.1 h.2.1).1, (h1 g g' h.1 h.2.1).2, by rw [h2, h2]; exact h.2.2⟩

theorem genContinuousLoop_rel (h : GenRel R) (cfg : GenConf α) (feat type : String)
    (data vl : List α) : ∀ n k ms, RelOk (OnMaps R) (genContinuousLoop cfg feat type data vl n k ms)
  | 0, _, _ => RelOk.pure _
  | n + 1, k, [] => RelOk.raise _
  | n + 1, k, m :: ms => by
    unfold genContinuousLoop
    refine RelOk.bind ?_ fun _ => RelOk.bind (genContinuousLoop_rel h cfg feat type data vl n (k + 1) ms) fun _ => RelOk.pure _
    unfold genContinuousOne
    exact RelOk.bind (onFcm_rel (h.concept _ _)) fun _ => RelOk.bind (RelOk.lift _) fun _ => RelOk.pure _

theorem genDiscreteLoop_rel (h : GenRel R) (type : String) :
    ∀ ns, RelOk (OnMaps R) (genDiscreteLoop type ns : PyM (Gen α) Unit)
  | [] => RelOk.pure _
  | n :: ns => RelOk.bind (onFcm_rel (h.concept n _)) fun _ => genDiscreteLoop_rel h type ns

theorem genDiscrete_rel (h : GenRel R) (cfg : GenConf α) (x : Ext α) (ts : List String)
    (feat : String) (col : Column α) : RelOk (OnMaps R) (genDiscrete cfg x ts feat col) :=
  RelOk.bind (genDiscreteLoop_rel h _ _) fun _ =>
    modify_rel (fun g g' h1 h2 => ⟨by dsimp only; rw [h1], h2⟩) fun _ => rfl

theorem genContinuous_rel (h : GenRel R) (cfg : GenConf α) (x : Ext α) (ts : List String)
    (feat : String) (data : List α) : RelOk (OnMaps R) (genContinuous cfg x ts feat data) :=
  RelOk.bind (RelOk.lift _) fun _ => RelOk.bind (genContinuousLoop_rel h _ _ _ _ _ _ _ _) fun _ =>
    modify_rel (fun g g' h1 h2 => ⟨by dsimp only; rw [h1], h2⟩) fun _ => rfl

theorem innerRow_rel (h : GenRel R) (e : α) (a : String) :
    ∀ bs, RelOk (OnMaps R) (innerRow e a bs : PyM (Gen α) Unit)
  | [] => RelOk.pure _
  | b :: bs => RelOk.bind (onFcm_rel (h.relation a b e)) fun _ =>
      RelOk.bind (onFcm_rel (h.relation b a e)) fun _ => innerRow_rel h e a bs

theorem innerLoop_rel (h : GenRel R) (e : α) : ∀ ns, RelOk (OnMaps R) (innerLoop e ns : PyM (Gen α) Unit)
  | [] => RelOk.pure _
  | a :: as => RelOk.bind (innerRow_rel h e a as) fun _ => innerLoop_rel h e as

theorem defWeight_rel (h : GenRel R) (cfg : GenConf α) (a b : String) (s : α) (c : Coef α) :
    RelOk (OnMaps R) (defWeight cfg a b s c) :=
  RelOk.bind (RelOk.lift _) fun _ => RelOk.ite
    (fun _ => RelOk.bind (RelOk.lift _) fun _ => RelOk.ite (fun _ => RelOk.pure _)
      fun _ => onFcm_rel (h.relation _ _ _))
    fun _ => RelOk.pure _

theorem runIf_rel {σ : Type} {R : σ → σ → Prop} {x : PyM σ Unit} (b : Bool) (h : RelOk R x) : RelOk R (runIf b x) :=
  RelOk.ite (fun _ => h) fun _ => RelOk.pure _

theorem pairRelation_rel (h : GenRel R) (cfg : GenConf α) (fa fb : Feature α)
    (pa pb : String × List α) : RelOk (OnMaps R) (pairRelation cfg fa fb pa pb) := by
  unfold pairRelation
  split
  · exact RelOk.raise _
  · refine RelOk.bind (RelOk.lift _) fun _ => RelOk.bind (RelOk.lift _) fun _ => RelOk.ite (fun _ => ?_) fun _ =>
      RelOk.ite (fun _ => ?_) fun _ => RelOk.ite (fun _ => defWeight_rel h _ _ _ _ _) fun _ => defWeight_rel h _ _ _ _ _
    · exact RelOk.bind (defWeight_rel h _ _ _ _ _) fun _ => defWeight_rel h _ _ _ _ _
    · refine RelOk.bind (RelOk.lift _) fun _ => RelOk.bind (RelOk.lift _) fun _ => ?_
      exact RelOk.bind (runIf_rel _ (defWeight_rel h _ _ _ _ _)) fun _ => runIf_rel _ (defWeight_rel h _ _ _ _ _)

theorem twoFeat_rel (h : GenRel R) (cfg : GenConf α) (fa fb : Feature α) : RelOk (OnMaps R) (twoFeat cfg fa fb) :=
  RelOk.forEach fun _ _ => RelOk.forEach fun _ _ => pairRelation_rel h _ _ _ _ _

theorem relateWith_rel (h : GenRel R) (cfg : GenConf α) (f o : String) : RelOk (OnMaps R) (relateWith cfg f o) :=
  RelOk.ite (fun _ => RelOk.pure _) fun _ => RelOk.getBind (fun g g' hg => by rw [hg.1]) fun _ =>
    RelOk.bind (RelOk.lift _) fun _ =>
    RelOk.bind (RelOk.lift _) fun _ => RelOk.ite (fun _ => twoFeat_rel h _ _ _) fun _ =>
      RelOk.ite (fun _ => RelOk.pure _) fun _ => twoFeat_rel h _ _ _

theorem buildFeature_rel (h : GenRel R) (cfg : GenConf α) (x : Ext α) (ts : List String)
    (feat : String) (col : Column α) : RelOk (OnMaps R) (buildFeature cfg x ts feat col) := by
  have tail : RelOk (OnMaps R) (do
      innerRelations cfg feat
      PyM.modify fun g => { g with processed := setAdd feat g.processed }
      let g ← PyM.get
      PyM.forEach (x.order g.processed) (relateWith cfg feat) : PyM (Gen α) Unit) := by
    refine RelOk.bind ?_ fun _ => RelOk.bind (modify_rel (fun g g' h1 h2 => ⟨h1, by dsimp only; rw [h2]⟩) fun _ => rfl)
      fun _ => RelOk.getBind (fun g g' hg => by rw [hg.2.1]) fun _ => RelOk.forEach fun _ _ => relateWith_rel h _ _ _
    unfold innerRelations
    exact RelOk.ite (fun _ => RelOk.pure _) fun _ => RelOk.getBind (fun g g' hg => by rw [hg.1]) fun _ =>
      RelOk.bind (RelOk.lift _) fun _ => innerLoop_rel h _ _
  unfold buildFeature
  cases col with
  | strs xs => exact RelOk.bind (genDiscrete_rel h _ _ _ _ _) fun _ => tail
  | bools xs => exact RelOk.bind (genDiscrete_rel h _ _ _ _ _) fun _ => tail
  | ints xs =>
    dsimp only
    split
    · exact RelOk.bind (genDiscrete_rel h _ _ _ _ _) fun _ => tail
    · exact RelOk.bind (genContinuous_rel h _ _ _ _ _) fun _ => tail
  | floats xs =>
    dsimp only
    split
    · exact RelOk.bind (genDiscrete_rel h _ _ _ _ _) fun _ => tail
    · exact RelOk.bind (genContinuous_rel h _ _ _ _ _) fun _ => tail

theorem buildFcm_rel (h : GenRel R) (cfg : GenConf α) (x : Ext α) (ts : List String) :
    ∀ cols, RelOk (OnMaps R) (buildFcm cfg x ts cols)
  | [] => RelOk.pure _
  | (f, c) :: rest => RelOk.bind (buildFeature_rel h cfg x ts f c) fun _ => buildFcm_rel h cfg x ts rest

end

/-! ### The two relations used -/

/-- The same map, not damaged by a failed call. -/
def SameClean (m m' : FCM α) : Prop := m = m' ∧ CleanInv m

theorem sameClean_rel : GenRel (SameClean : FCM α → FCM α → Prop) := by
  constructor
  · rintro c a m _ ⟨rfl, h⟩
    refine ⟨rfl, fun b hb => ⟨rfl, ?_⟩⟩
    exact Op.clean (op := .addConcept c a) h (Prod.ext hb rfl)
  · rintro o d w m _ ⟨rfl, h⟩
    refine ⟨rfl, fun b hb => ⟨rfl, ?_⟩⟩
    exact Op.clean (op := .addRelation o d w) h (Prod.ext hb rfl)

/-- Learning that succeeds keeps a map clean. -/
theorem buildFcm_clean {cfg : GenConf α} {x : Ext α} {ts : List String} {cols : List (String × Column α)} {g g' : Gen α}
    (hc : CleanInv g.fcm) (h : buildFcm cfg x ts cols g = (.ok (), g')) : CleanInv g'.fcm := by
  have := (buildFcm_rel sameClean_rel cfg x ts cols g g ⟨rfl, rfl, rfl, hc⟩).2 () (by rw [h])
  rw [h] at this
  exact this.2.2.2

/-- The maps differ only in the engine's private data, which is not prepared unless there are no concepts. -/
def Remade (m m' : FCM α) : Prop :=
  m' = m.withEng m' ∧ (m.topology ≠ [] → m.prepared = false ∧ m'.prepared = false)

theorem remade_rel : GenRel (Remade : FCM α → FCM α → Prop) := by
  constructor
  · rintro c a m m' ⟨h, -⟩
    rw [h]
    unfold FCM.addConcept
    show (_ : Except Err Unit) = _ ∧ _
    dsimp only [FCM.withEng]
    rcases buildNode m.default a (freshNode (a.isActive.getD m.default.active)) with ⟨_ | ⟨⟩, n⟩
    · exact ⟨rfl, fun _ h => by cases h⟩
    · exact ⟨rfl, fun _ _ => ⟨rfl, fun _ => ⟨rfl, rfl⟩⟩⟩
  · rintro o d w m m' ⟨h, -⟩
    rw [h]
    unfold FCM.addRelation
    dsimp only [FCM.withEng]
    repeat' split
    all_goals first
      | exact ⟨rfl, fun _ _ => ⟨rfl, fun _ => ⟨rfl, rfl⟩⟩⟩
      | exact ⟨rfl, fun _ h => by cases h⟩

/-! ### Settings -/

/-- The settings of a map. -/
def FCM.bare (m : FCM α) : FCM α :=
  { m with topology := [], arcList := [], execution := [], iterations := 0, prepared := false
           cache := ⟨[], [], [], [], [], []⟩, stateVector := [] }

theorem addConcept_bare (m0 : FCM α) (c : String) (a : ConceptArgs α) :
    Pres (fun m => m.bare = m0.bare) (FCM.addConcept c a) := by
  intro m hm
  unfold FCM.addConcept
  dsimp only
  split <;> exact hm

theorem addRelation_bare (m0 : FCM α) (o d : String) (w : α) :
    Pres (fun m => m.bare = m0.bare) (FCM.addRelation o d w) := by
  intro m hm
  unfold FCM.addRelation
  dsimp only
  repeat' split
  all_goals exact hm

theorem bare_gen (m0 : FCM α) : GenPres (fun m => m.bare = m0.bare) := ⟨addConcept_bare m0, addRelation_bare m0⟩

theorem initConcept_bare (m0 : FCM α) (c : String) (v : α) (r : Bool) :
    Pres (fun m => m.bare = m0.bare) (FCM.initConcept c v r) := by
  intro m hm
  unfold FCM.initConcept
  repeat' split
  all_goals exact hm

theorem resetOne_bare (m0 : FCM α) (c : String) : Pres (fun m => m.bare = m0.bare) (resetOne c) := by
  intro m hm
  unfold resetOne
  dsimp only
  repeat' split
  all_goals exact hm

theorem clearOne_bare (m0 : FCM α) (c : String) : Pres (fun m => m.bare = m0.bare) (clearOne c) := by
  intro m hm
  unfold clearOne
  split <;> exact hm

theorem reset_bare (m0 : FCM α) : Pres (fun m => m.bare = m0.bare) FCM.resetExecution := fun m hm =>
  Pres.forEach (fun c _ => resetOne_bare m0 c) m hm

theorem clear_bare (m0 : FCM α) : Pres (fun m => m.bare = m0.bare) FCM.clearExecution := fun m hm =>
  Pres.forEach (fun c _ => clearOne_bare m0 c) m hm

theorem clearAll_bare (m0 : FCM α) : Pres (fun m => m.bare = m0.bare) FCM.clearAll :=
  Pres.bind (reset_bare m0) fun _ => Pres.modify fun _ h => h

theorem gatherArc_bare (m0 : FCM α) (a : Arc α) : Pres (fun m => m.bare = m0.bare) (gatherArc a) := by
  intro m hm
  unfold gatherArc
  repeat' split
  all_goals exact hm

theorem stepNode_bare (m0 : FCM α) (c : String) : Pres (fun m => m.bare = m0.bare) (stepNode c) := by
  intro m hm
  unfold stepNode
  dsimp only
  repeat' split
  all_goals exact hm

theorem decideNode_bare (m0 : FCM α) (c : String) : Pres (fun m => m.bare = m0.bare) (decideNode c) := by
  intro m hm
  unfold decideNode
  repeat' split
  all_goals exact hm

theorem stepOnce_bare (m0 : FCM α) : Pres (fun m => m.bare = m0.bare) FCM.stepOnce := by
  intro m hm
  unfold FCM.stepOnce
  have h1 := Pres.forEach (fun a _ => gatherArc_bare m0 a) (xs := m.arcList) m hm
  split
  · rename_i h; rw [h] at h1; exact h1
  · rename_i m1 h
    rw [h] at h1
    have h2 := Pres.forEach (fun c _ => stepNode_bare m0 c) (xs := m1.execution.keys) m1 h1
    split
    · rename_i h; rw [h] at h2; exact h2
    · rename_i h; rw [h] at h2; exact h2

theorem iterLoop_bare (m0 : FCM α) : ∀ fuel extra, Pres (fun m => m.bare = m0.bare) (FCM.iterLoop fuel extra)
  | 0, extra => by
    intro m hm
    unfold FCM.iterLoop
    split <;> exact hm
  | fuel + 1, extra => by
    intro m hm
    unfold FCM.iterLoop
    dsimp only
    split
    · split
      · exact hm
      · have h1 := stepOnce_bare m0 m hm
        split
        · rename_i h; rw [h] at h1; exact h1
        · rename_i h; rw [h] at h1; exact iterLoop_bare m0 fuel _ _ h1
    · exact hm

theorem engine_bare (m0 : FCM α) : Pres (fun m => m.bare = m0.bare) FCM.engine := by
  intro m hm
  unfold FCM.engine
  split
  · unfold FCM.iterativeInference
    exact iterLoop_bare m0 _ _ _ hm
  · unfold FCM.vectorizedInference FCM.vectorRunStore
    dsimp only
    repeat' split
    all_goals exact hm

theorem run_bare (m0 : FCM α) (b : Bool) : Pres (fun m => m.bare = m0.bare) (FCM.runInference b) := by
  intro m hm
  unfold FCM.runInference
  have tail : ∀ m : FCM α, m.bare = m0.bare → ((match FCM.engine m with
      | (.error e, m) => (.error e, m)
      | (.ok (), m) => FCM.decideAll m : Except Err Unit × FCM α)).2.bare = m0.bare := by
    intro m hm
    have h2 := engine_bare m0 m hm
    split
    · rename_i h; rw [h] at h2; exact h2
    · rename_i h; rw [h] at h2
      exact Pres.forEach (fun c _ => decideNode_bare m0 c) _ h2
  cases b with
  | true =>
    rw [if_pos rfl]
    have h1 := reset_bare m0 m hm
    split
    · rename_i h; rw [h] at h1; exact h1
    · rename_i h; rw [h] at h1; exact tail _ h1
  | false =>
    rw [if_neg (by decide)]
    exact tail _ hm

end PyFCM
