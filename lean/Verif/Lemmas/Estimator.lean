import Verif.Lemmas.Twin
/-
Histories of `FcmEstimator` calls.
-/
namespace PyFCM
open Arith

set_option linter.unusedSectionVars false

variable {α : Type} [Arith α]

/-! ### Trajectories are never lost -/

/-- The concepts of the map are `K` and each has a trajectory. -/
def Tracked (K : List String) (m : FCM α) : Prop := m.topology.keys = K ∧ ∀ c ∈ K, c ∈ m.execution.keys

theorem Tracked.set {K : List String} {m : FCM α} (h : Tracked K m) {c : String} {n0 n : Node α} {xs : List α}
    (hc : m.topology.get? c = some n0) :
    Tracked K { m with topology := m.topology.set c n, execution := m.execution.set c xs } := by
  refine ⟨?_, fun k hk => ?_⟩
  · dsimp only
    rw [Dict.keys_set_of_mem _ _ _ (Dict.mem_keys_of_get? hc)]; exact h.1
  · dsimp only
    rw [Dict.mem_keys_set]; exact .inl (h.2 k hk)

theorem Tracked.setTop {K : List String} {m : FCM α} (h : Tracked K m) {c : String} {n0 n : Node α}
    (hc : m.topology.get? c = some n0) : Tracked K { m with topology := m.topology.set c n } := by
  refine ⟨?_, h.2⟩
  dsimp only
  rw [Dict.keys_set_of_mem _ _ _ (Dict.mem_keys_of_get? hc)]; exact h.1

theorem Tracked.setExec {K : List String} {m : FCM α} (h : Tracked K m) {c : String} {xs : List α} :
    Tracked K { m with execution := m.execution.set c xs } := by
  refine ⟨h.1, fun k hk => ?_⟩
  dsimp only
  rw [Dict.mem_keys_set]; exact .inl (h.2 k hk)

theorem clearOne_tracked (K : List String) (c : String) : Pres (Tracked K) (clearOne c : PyM (FCM α) Unit) := by
  intro m hm
  unfold clearOne
  split
  · exact hm
  · rename_i n hn; exact hm.set hn

theorem resetOne_tracked (K : List String) (c : String) : Pres (Tracked K) (resetOne c : PyM (FCM α) Unit) := by
  intro m hm
  unfold resetOne
  split
  · exact hm
  · rename_i n hn
    dsimp only
    split
    · exact hm.setTop hn
    · exact hm.setTop hn
    · have := (hm.setTop (n := { n with aux := [] }) hn)
      refine ⟨?_, fun k hk => ?_⟩
      · dsimp only
        rw [Dict.keys_set_of_mem]
        · exact this.1
        · rw [this.1, ← hm.1]; exact Dict.mem_keys_of_get? hn
      · dsimp only
        rw [Dict.mem_keys_set]; exact .inl (hm.2 k hk)

theorem initConcept_tracked (K : List String) (c : String) (v : α) (r : Bool) :
    Pres (Tracked K) (FCM.initConcept c v r) := by
  intro m hm
  unfold FCM.initConcept
  split
  · split <;> exact hm
  · rename_i n hn
    repeat' split
    all_goals first | exact hm | exact hm.set hn

theorem gatherArc_tracked (K : List String) (a : Arc α) : Pres (Tracked K) (gatherArc a) := by
  intro m hm
  unfold gatherArc
  split
  · exact hm
  · split
    · split
      · exact hm
      · split
        · exact hm
        · rename_i n hn; exact hm.setTop hn
    · exact hm

theorem stepNode_tracked (K : List String) (c : String) : Pres (Tracked K) (stepNode c : PyM (FCM α) Unit) := by
  intro m hm
  unfold stepNode
  split
  · exact hm
  · rename_i n hn
    split
    · exact hm
    · split
      · exact hm
      · dsimp only
        have h1 : ∀ n', Tracked K { m with topology := m.topology.set c n' } := fun n' => hm.setTop hn
        split
        · exact h1 _
        · split
          · exact h1 _
          · split
            · exact h1 _
            · rename_i res _
              have h2 := (h1 { n with aux := [] }).setTop (n := { n with aux := [], value := res })
                (Dict.get?_set_self _ _ _)
              split
              · exact h2
              · exact h2.setExec

theorem stepOnce_tracked (K : List String) : Pres (Tracked K) (FCM.stepOnce : PyM (FCM α) Unit) := by
  intro m hm
  unfold FCM.stepOnce
  have h1 := Pres.forEach (fun a _ => gatherArc_tracked K a) (xs := m.arcList) m hm
  split
  · rename_i h; rw [h] at h1; exact h1
  · rename_i m1 h
    rw [h] at h1
    have h2 := Pres.forEach (fun c _ => stepNode_tracked K c) (xs := m1.execution.keys) m1 h1
    split
    · rename_i h; rw [h] at h2; exact h2
    · rename_i h; rw [h] at h2; exact h2

theorem iterLoop_tracked (K : List String) : ∀ fuel extra, Pres (Tracked K) (FCM.iterLoop fuel extra : PyM (FCM α) Unit)
  | 0, extra => by
    intro m hm
    unfold FCM.iterLoop
    split <;> exact hm
  | fuel + 1, extra => by
    intro m hm
    unfold FCM.iterLoop
    dsimp only
    split
    · split
      · exact hm
      · have h1 := stepOnce_tracked K m hm
        split
        · rename_i h; rw [h] at h1; exact h1
        · rename_i h; rw [h] at h1; exact iterLoop_tracked K fuel _ _ h1
    · exact hm

theorem storeRows_mem (k : Nat) {c : String} : ∀ (cs : List String) (rs : List (List α)) (d : Dict (List α)),
    c ∈ d.keys → c ∈ (storeRows k cs rs d).keys
  | [], _, d, h => by simpa [storeRows] using h
  | _ :: _, [], d, h => by simpa [storeRows] using h
  | a :: cs, r :: rs, d, h => by
    simp only [storeRows]
    exact storeRows_mem k cs rs _ (by rw [Dict.mem_keys_set]; exact .inl h)

theorem vectorRunStore_tracked {K : List String} {m : FCM α} (h : Tracked K m) : Tracked K m.vectorRunStore.2 := by
  unfold FCM.vectorRunStore
  split
  · exact h
  · split
    · exact h
    · exact ⟨h.1, fun c hc => storeRows_mem _ _ _ _ (h.2 c hc)⟩

theorem engine_tracked (K : List String) : Pres (Tracked K) (FCM.engine : PyM (FCM α) Unit) := by
  intro m hm
  unfold FCM.engine
  split
  · unfold FCM.iterativeInference
    exact iterLoop_tracked K _ _ _ hm
  · unfold FCM.vectorizedInference
    dsimp only
    split
    · exact vectorRunStore_tracked hm
    · split
      · exact hm
      · exact vectorRunStore_tracked hm

theorem decideNode_tracked (K : List String) (c : String) : Pres (Tracked K) (decideNode c : PyM (FCM α) Unit) := by
  intro m hm
  unfold decideNode
  split
  · exact hm
  · rename_i n hn
    split
    · exact hm
    · split
      · exact hm
      · exact hm.setTop hn

theorem reset_tracked (K : List String) : Pres (Tracked K) (FCM.resetExecution : PyM (FCM α) Unit) := fun m hm =>
  Pres.forEach (fun c _ => resetOne_tracked K c) m hm

theorem clear_tracked (K : List String) : Pres (Tracked K) (FCM.clearExecution : PyM (FCM α) Unit) := fun m hm =>
  Pres.forEach (fun c _ => clearOne_tracked K c) m hm

theorem run_tracked (K : List String) : Pres (Tracked K) (FCM.runInference true : PyM (FCM α) Unit) := by
  intro m hm
  unfold FCM.runInference
  rw [if_pos rfl]
  have h1 := reset_tracked K m hm
  split
  · rename_i h; rw [h] at h1; exact h1
  · rename_i h
    rw [h] at h1
    have h2 := engine_tracked K _ h1
    split
    · rename_i h; rw [h] at h2; exact h2
    · rename_i h; rw [h] at h2
      exact Pres.forEach (fun c _ => decideNode_tracked K c) _ h2

/-- The calls of `predict` keep a map sound, also when they raise. -/
theorem sound_of_op {m m' : FCM α} (op : Op α) (hm : Sound m) (h : m' = (op.run m).2)
    (ht : ∀ K, Pres (Tracked K) op.run) : Sound m' := by
  have hi : Inv m' := by rw [h]; exact op.pres m hm.inv
  have ht' : Tracked m.topology.keys m' := by
    rw [h]; exact ht _ m ⟨rfl, fun c hc => (hm.sameKeys c).1 hc⟩
  refine ⟨hi, fun c => ⟨fun hc => ht'.2 c (by rw [← ht'.1]; exact hc), fun hc => hi.sub c hc⟩, ?_⟩
  rw [h]; exact op.coherent m hm.coherent

theorem initConcept_sound (c : String) (v : α) (r : Bool) : Pres Sound (FCM.initConcept c v r) := fun _ hm =>
  sound_of_op (.initConcept c v r) hm rfl fun K => initConcept_tracked K c v r

theorem clear_sound : Pres Sound (FCM.clearExecution : PyM (FCM α) Unit) := fun _ hm =>
  sound_of_op .clearExecution hm rfl clear_tracked

theorem run_sound : Pres Sound (FCM.runInference true : PyM (FCM α) Unit) := fun _ hm =>
  sound_of_op (.runInference true) hm rfl run_tracked

theorem initAll_pres {P : FCM α → Prop} (hP : ∀ c v r, Pres P (FCM.initConcept c v r)) (v : α) :
    ∀ cs : List String, Pres P (initAll v cs)
  | [] => Pres.pure _
  | c :: cs => Pres.bind (hP c v false) fun _ => initAll_pres hP v cs

theorem initByFeature_pres {P : FCM α → Prop} (hP : ∀ c v r, Pres P (FCM.initConcept c v r)) (cfg : GenConf α)
    (x : Ext α) (fs : Dict (Feature α)) (feat : String) (v : Cell α) : Pres P (initByFeature cfg x fs feat v) := by
  have hb : Pres P (initByFeatureBody cfg x fs feat v) := by
    unfold initByFeatureBody
    refine Pres.bind (Pres.lift _) fun f => Pres.ite (fun _ => ?_) fun _ => ?_
    · exact Pres.bind (Pres.lift _) fun w => initAll_pres hP w _
    · exact Pres.bind (Pres.lift _) fun k => hP _ _ _
  intro m hm
  have := hb m hm
  unfold initByFeature
  split <;> rename_i h <;> rw [h] at this <;> exact this

theorem predictRow_pres {P : FCM α → Prop} (hP : ∀ c v r, Pres P (FCM.initConcept c v r))
    (hc : Pres P (FCM.clearExecution : PyM (FCM α) Unit)) (hr : Pres P (FCM.runInference true : PyM (FCM α) Unit))
    (cfg : GenConf α) (x : Ext α) (fs : Dict (Feature α)) (row : List (String × Cell α)) :
    Pres P (predictRow cfg x fs row) := by
  unfold predictRow
  refine Pres.bind hc fun _ => Pres.bind ?_ fun _ => ?_
  · exact Pres.forEach fun p _ => initByFeature_pres hP cfg x fs p.1 p.2
  · unfold inferenceResult
    refine Pres.bind hr fun _ => Pres.bind Pres.get fun m => Pres.bind (Pres.lift _) fun _ => ?_
    exact Pres.bind (Pres.lift _) fun _ => Pres.lift _

theorem predictRows_pres {P : FCM α → Prop} (hP : ∀ c v r, Pres P (FCM.initConcept c v r))
    (hc : Pres P (FCM.clearExecution : PyM (FCM α) Unit)) (hr : Pres P (FCM.runInference true : PyM (FCM α) Unit))
    (cfg : GenConf α) (x : Ext α) (fs : Dict (Feature α)) :
    ∀ rows : List (List (String × Cell α)), Pres P (predictRows cfg x fs rows)
  | [] => Pres.pure _
  | r :: rs => Pres.bind (predictRow_pres hP hc hr cfg x fs r) fun _ =>
      Pres.bind (predictRows_pres hP hc hr cfg x fs rs) fun _ => Pres.pure _

/-- A property of maps kept by every public operation. -/
structure OpPres (P : FCM α → Prop) : Prop where
  op : ∀ o : Op α, Pres P o.run

theorem OpPres.predictRows {P : FCM α → Prop} (h : OpPres P) (cfg : GenConf α) (x : Ext α) (fs : Dict (Feature α))
    (rows : List (List (String × Cell α))) : Pres P (PyFCM.predictRows cfg x fs rows) :=
  predictRows_pres (fun c v r => h.op (.initConcept c v r)) (h.op .clearExecution) (h.op (.runInference true)) cfg x fs rows

/-- A property of maps kept by the two operations that learning uses. -/
structure GenPres (P : FCM α → Prop) : Prop where
  concept : ∀ c a, Pres P (FCM.addConcept c a)
  relation : ∀ o d w, Pres P (FCM.addRelation o d w)

theorem OpPres.gen {P : FCM α → Prop} (h : OpPres P) : GenPres P :=
  ⟨fun c a => h.op (.addConcept c a), fun o d w => h.op (.addRelation o d w)⟩

/-- `P` of the generator's map. -/
def OnMap (P : FCM α → Prop) (g : Gen α) : Prop := P g.fcm

theorem onFcm_pres {P : FCM α → Prop} {p : PyM (FCM α) Unit} (h : Pres P p) : Pres (OnMap P) (Gen.onFcm p) :=
  fun g hg => h g.fcm hg

theorem genContinuousLoop_pres {P : FCM α → Prop} (h : GenPres P) (cfg : GenConf α) (feat type : String)
    (data vl : List α) : ∀ n k ms, Pres (OnMap P) (genContinuousLoop cfg feat type data vl n k ms)
  | 0, _, _ => Pres.pure _
  | n + 1, k, [] => Pres.raise _
  | n + 1, k, m :: ms => by
    unfold genContinuousLoop
    refine Pres.bind ?_ fun _ => Pres.bind (genContinuousLoop_pres h cfg feat type data vl n (k + 1) ms) fun _ => Pres.pure _
    unfold genContinuousOne
    exact Pres.bind (onFcm_pres (h.concept _ _)) fun _ => Pres.bind (Pres.lift _) fun _ => Pres.pure _

theorem genDiscreteLoop_pres {P : FCM α → Prop} (h : GenPres P) (type : String) :
    ∀ ns, Pres (OnMap P) (genDiscreteLoop type ns : PyM (Gen α) Unit)
  | [] => Pres.pure _
  | n :: ns => Pres.bind (onFcm_pres (h.concept n _)) fun _ => genDiscreteLoop_pres h type ns

theorem genDiscrete_pres {P : FCM α → Prop} (h : GenPres P) (cfg : GenConf α) (x : Ext α) (ts : List String)
    (feat : String) (col : Column α) : Pres (OnMap P) (genDiscrete cfg x ts feat col) :=
  Pres.bind (genDiscreteLoop_pres h _ _) fun _ => Pres.modify fun _ h => h

theorem genContinuous_pres {P : FCM α → Prop} (h : GenPres P) (cfg : GenConf α) (x : Ext α) (ts : List String)
    (feat : String) (data : List α) : Pres (OnMap P) (genContinuous cfg x ts feat data) :=
  Pres.bind (Pres.lift _) fun _ => Pres.bind (genContinuousLoop_pres h _ _ _ _ _ _ _ _) fun _ => Pres.modify fun _ h => h

theorem innerRow_pres {P : FCM α → Prop} (h : GenPres P) (e : α) (a : String) :
    ∀ bs, Pres (OnMap P) (innerRow e a bs : PyM (Gen α) Unit)
  | [] => Pres.pure _
  | b :: bs => Pres.bind (onFcm_pres (h.relation a b e)) fun _ =>
      Pres.bind (onFcm_pres (h.relation b a e)) fun _ => innerRow_pres h e a bs

theorem innerLoop_pres {P : FCM α → Prop} (h : GenPres P) (e : α) :
    ∀ ns, Pres (OnMap P) (innerLoop e ns : PyM (Gen α) Unit)
  | [] => Pres.pure _
  | a :: as => Pres.bind (innerRow_pres h e a as) fun _ => innerLoop_pres h e as

theorem defWeight_pres {P : FCM α → Prop} (h : GenPres P) (cfg : GenConf α) (a b : String) (s : α) (c : Coef α) :
    Pres (OnMap P) (defWeight cfg a b s c) :=
  Pres.bind (Pres.lift _) fun _ => Pres.ite
    (fun _ => Pres.bind (Pres.lift _) fun _ => Pres.ite (fun _ => Pres.pure _)
      fun _ => onFcm_pres (h.relation _ _ _))
    fun _ => Pres.pure _

theorem runIf_pres {σ : Type} {P : σ → Prop} {x : PyM σ Unit} (b : Bool) (h : Pres P x) : Pres P (runIf b x) :=
  Pres.ite (fun _ => h) fun _ => Pres.pure _

theorem pairRelation_pres {P : FCM α → Prop} (h : GenPres P) (cfg : GenConf α) (fa fb : Feature α)
    (pa pb : String × List α) : Pres (OnMap P) (pairRelation cfg fa fb pa pb) := by
  unfold pairRelation
  split
  · exact Pres.raise _
  · refine Pres.bind (Pres.lift _) fun _ => Pres.bind (Pres.lift _) fun _ => Pres.ite (fun _ => ?_) fun _ =>
      Pres.ite (fun _ => ?_) fun _ => Pres.ite (fun _ => defWeight_pres h _ _ _ _ _) fun _ => defWeight_pres h _ _ _ _ _
    · exact Pres.bind (defWeight_pres h _ _ _ _ _) fun _ => defWeight_pres h _ _ _ _ _
    · refine Pres.bind (Pres.lift _) fun _ => Pres.bind (Pres.lift _) fun _ => ?_
      exact Pres.bind (runIf_pres _ (defWeight_pres h _ _ _ _ _)) fun _ => runIf_pres _ (defWeight_pres h _ _ _ _ _)

theorem twoFeat_pres {P : FCM α → Prop} (h : GenPres P) (cfg : GenConf α) (fa fb : Feature α) :
    Pres (OnMap P) (twoFeat cfg fa fb) :=
  Pres.forEach fun _ _ => Pres.forEach fun _ _ => pairRelation_pres h _ _ _ _ _

theorem relateWith_pres {P : FCM α → Prop} (h : GenPres P) (cfg : GenConf α) (f o : String) :
    Pres (OnMap P) (relateWith cfg f o) :=
  Pres.ite (fun _ => Pres.pure _) fun _ => Pres.bind Pres.get fun _ => Pres.bind (Pres.lift _) fun _ =>
    Pres.bind (Pres.lift _) fun _ => Pres.ite (fun _ => twoFeat_pres h _ _ _) fun _ =>
      Pres.ite (fun _ => Pres.pure _) fun _ => twoFeat_pres h _ _ _

theorem buildFeature_pres {P : FCM α → Prop} (h : GenPres P) (cfg : GenConf α) (x : Ext α) (ts : List String)
    (feat : String) (col : Column α) : Pres (OnMap P) (buildFeature cfg x ts feat col) := by
  have tail : Pres (OnMap P) (do
      innerRelations cfg feat
      PyM.modify fun g => { g with processed := setAdd feat g.processed }
      let g ← PyM.get
      PyM.forEach (x.order g.processed) (relateWith cfg feat) : PyM (Gen α) Unit) := by
    refine Pres.bind ?_ fun _ => Pres.bind (Pres.modify fun _ h => h) fun _ => Pres.bind Pres.get fun _ =>
      Pres.forEach fun _ _ => relateWith_pres h _ _ _
    unfold innerRelations
    exact Pres.ite (fun _ => Pres.pure _) fun _ => Pres.bind Pres.get fun _ => Pres.bind (Pres.lift _) fun _ =>
      innerLoop_pres h _ _
  unfold buildFeature
  cases col with
  | strs xs => exact Pres.bind (genDiscrete_pres h _ _ _ _ _) fun _ => tail
  | bools xs => exact Pres.bind (genDiscrete_pres h _ _ _ _ _) fun _ => tail
  | ints xs =>
    dsimp only
    split
    · exact Pres.bind (genDiscrete_pres h _ _ _ _ _) fun _ => tail
    · exact Pres.bind (genContinuous_pres h _ _ _ _ _) fun _ => tail
  | floats xs =>
    dsimp only
    split
    · exact Pres.bind (genDiscrete_pres h _ _ _ _ _) fun _ => tail
    · exact Pres.bind (genContinuous_pres h _ _ _ _ _) fun _ => tail

theorem buildFcm_pres {P : FCM α → Prop} (h : GenPres P) (cfg : GenConf α) (x : Ext α) (ts : List String) :
    ∀ cols, Pres (OnMap P) (buildFcm cfg x ts cols)
  | [] => Pres.pure _
  | (f, c) :: rest => Pres.bind (buildFeature_pres h cfg x ts f c) fun _ => buildFcm_pres h cfg x ts rest

end PyFCM
