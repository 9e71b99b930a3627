import Verif.Lemmas.Estimator
/-
The order of the trajectories is kept by everything `predict` does.
-/
namespace PyFCM
open Arith

set_option linter.unusedSectionVars false

variable {α : Type} [Arith α]

/-- The trajectories of the map begin with those of the concepts `K`, in this order. -/
def Heads (K : List String) (m : FCM α) : Prop := K <+: m.execution.keys

theorem heads_set {K : List String} {d : Dict (List α)} (h : K <+: d.keys) (c : String) (v : List α) : K <+: (d.set c v).keys := by
  by_cases hc : c ∈ d.keys
  · rw [Dict.keys_set_of_mem _ _ _ hc]; exact h
  · rw [Dict.keys_set_of_not_mem _ _ _ hc]; exact h.trans (List.prefix_append _ _)

theorem clearOne_heads (K : List String) (c : String) : Pres (Heads K) (clearOne c : PyM (FCM α) Unit) := by
  intro m hm
  unfold clearOne
  split
  · exact hm
  · exact heads_set hm _ _

theorem resetOne_heads (K : List String) (c : String) : Pres (Heads K) (resetOne c : PyM (FCM α) Unit) := by
  intro m hm
  unfold resetOne
  split
  · exact hm
  · dsimp only
    split
    · exact hm
    · exact hm
    · exact heads_set hm _ _

theorem initConcept_heads (K : List String) (c : String) (v : α) (r : Bool) : Pres (Heads K) (FCM.initConcept c v r) := by
  intro m hm
  unfold FCM.initConcept
  split
  · split <;> exact hm
  · repeat' split
    all_goals first | exact hm | exact heads_set hm _ _

theorem gatherArc_heads (K : List String) (a : Arc α) : Pres (Heads K) (gatherArc a) := by
  intro m hm
  unfold gatherArc
  repeat' split
  all_goals exact hm

theorem stepNode_heads (K : List String) (c : String) : Pres (Heads K) (stepNode c : PyM (FCM α) Unit) := by
  intro m hm
  unfold stepNode
  split
  · exact hm
  · split
    · exact hm
    · split
      · exact hm
      · dsimp only
        repeat' split
        all_goals first | exact hm | exact heads_set hm _ _

theorem stepOnce_heads (K : List String) : Pres (Heads K) (FCM.stepOnce : PyM (FCM α) Unit) := by
  intro m hm
  unfold FCM.stepOnce
  have h1 := Pres.forEach (fun a _ => gatherArc_heads K a) (xs := m.arcList) m hm
  split
  · rename_i h; rw [h] at h1; exact h1
  · rename_i m1 h
    rw [h] at h1
    have h2 := Pres.forEach (fun c _ => stepNode_heads K c) (xs := m1.execution.keys) m1 h1
    split
    · rename_i h; rw [h] at h2; exact h2
    · rename_i h; rw [h] at h2; exact h2

theorem iterLoop_heads (K : List String) : ∀ fuel extra, Pres (Heads K) (FCM.iterLoop fuel extra : PyM (FCM α) Unit)
  | 0, extra => by
    intro m hm
    unfold FCM.iterLoop
    split <;> exact hm
  | fuel + 1, extra => by
    intro m hm
    unfold FCM.iterLoop
    dsimp only
    split
    · split
      · exact hm
      · have h1 := stepOnce_heads K m hm
        split
        · rename_i h; rw [h] at h1; exact h1
        · rename_i h; rw [h] at h1; exact iterLoop_heads K fuel _ _ h1
    · exact hm

theorem storeRows_heads {K : List String} (k : Nat) : ∀ (cs : List String) (rs : List (List α)) (d : Dict (List α)),
    K <+: d.keys → K <+: (storeRows k cs rs d).keys
  | [], _, d, h => by simpa [storeRows] using h
  | _ :: _, [], d, h => by simpa [storeRows] using h
  | a :: cs, r :: rs, d, h => by
    simp only [storeRows]
    exact storeRows_heads k cs rs _ (heads_set h _ _)

theorem vectorRunStore_heads {K : List String} {m : FCM α} (h : Heads K m) : Heads K m.vectorRunStore.2 := by
  unfold FCM.vectorRunStore
  split
  · exact h
  · split
    · exact h
    · exact storeRows_heads _ _ _ _ h

theorem engine_heads (K : List String) : Pres (Heads K) (FCM.engine : PyM (FCM α) Unit) := by
  intro m hm
  unfold FCM.engine
  split
  · unfold FCM.iterativeInference
    exact iterLoop_heads K _ _ _ hm
  · unfold FCM.vectorizedInference
    dsimp only
    split
    · exact vectorRunStore_heads hm
    · split
      · exact hm
      · exact vectorRunStore_heads hm

theorem decideNode_heads (K : List String) (c : String) : Pres (Heads K) (decideNode c : PyM (FCM α) Unit) := by
  intro m hm
  unfold decideNode
  repeat' split
  all_goals exact hm

theorem run_heads (K : List String) : Pres (Heads K) (FCM.runInference true : PyM (FCM α) Unit) := by
  intro m hm
  unfold FCM.runInference
  rw [if_pos rfl]
  have h1 : Heads K (FCM.resetExecution m).2 := Pres.forEach (fun c _ => resetOne_heads K c) m hm
  split
  · rename_i h; rw [h] at h1; exact h1
  · rename_i h
    rw [h] at h1
    have h2 := engine_heads K _ h1
    split
    · rename_i h; rw [h] at h2; exact h2
    · rename_i h; rw [h] at h2
      exact Pres.forEach (fun c _ => decideNode_heads K c) _ h2

theorem predictRows_heads (K : List String) (cfg : GenConf α) (x : Ext α) (fs : Dict (Feature α))
    (rows : List (List (String × Cell α))) : Pres (Heads K) (predictRows cfg x fs rows) :=
  predictRows_pres (initConcept_heads K) (fun m hm => Pres.forEach (fun c _ => clearOne_heads K c) m hm) (run_heads K) cfg x fs rows

/-- Nothing is added to the trajectories of a sound map either. -/
theorem Heads.keys {m m' : FCM α} (hm : Sound m) (hm' : Sound m') (hk : ∀ c, c ∈ m'.topology.keys ↔ c ∈ m.topology.keys)
    (h : Heads m.execution.keys m') : m'.execution.keys = m.execution.keys := by
  obtain ⟨l, hl⟩ := h
  cases l with
  | nil => rw [← hl]; simp
  | cons c l =>
    have h1 : c ∈ m'.execution.keys := by rw [← hl]; simp
    have h2 : c ∈ m.execution.keys := (hm.sameKeys c).1 ((hk c).1 ((hm'.sameKeys c).2 h1))
    have h3 := hm'.inv.xnd
    rw [← hl, List.nodup_append] at h3
    exact absurd rfl (h3.2.2 c h2 c (by simp))

end PyFCM
