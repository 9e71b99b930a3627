import Verif.Lemmas.RunTop
import Verif.Lemmas.Vector
/-
The vectorised engine terminates, and the length of what it records.
-/
namespace PyFCM
open Arith Spec

set_option linter.unusedSectionVars false

variable {α : Type} [Arith α]

theorem mapM_ne_diverge {β γ : Type} {f : β → Except Err γ} (hf : ∀ x, f x ≠ .error .diverge) (xs : List β) :
    xs.mapM f ≠ .error .diverge := by
  induction xs with
  | nil => simp [pure, Except.pure]
  | cons x xs ih =>
    rw [List.mapM_cons]
    exact bind_ne_diverge (hf x) fun _ => bind_ne_diverge ih fun _ => pure_ne_diverge _

theorem execActv_ne_diverge (id : Nat) (v : α) (args : List α) : execActvFunction id v args ≠ .error .diverge := by
  unfold execActvFunction
  repeat' split
  all_goals first
    | exact ok_ne_diverge _
    | exact sigmoid_ne_diverge _ _
    | exact sigmoidHip_ne_diverge _ _
    | exact relm_ne_diverge _ _
    | exact fuzzySet_ne_diverge _ _ _
    | simp

theorem normInput_ne_diverge (r x : α) : normInput r x ≠ .error .diverge := by
  unfold normInput; split
  · exact pdiv_ne_diverge _ _
  · exact ok_ne_diverge _

theorem vecNode_ne_diverge (c : Cache α) (s : List α) (p : Nat) : vecNode c s p ≠ .error .diverge := by
  unfold vecNode
  exact bind_ne_diverge (njIdx_ne_diverge _ _) fun _ => bind_ne_diverge (njIdx_ne_diverge _ _) fun _ =>
    bind_ne_diverge (njIdx_ne_diverge _ _) fun _ => bind_ne_diverge (njIdx_ne_diverge _ _) fun _ =>
    bind_ne_diverge (njIdx_ne_diverge _ _) fun _ => bind_ne_diverge (normInput_ne_diverge _ _) fun _ =>
    execActv_ne_diverge _ _ _

theorem vecLoop_ne_diverge (c : Cache α) (n M : Nat) (d : α) (e fuel : Nat) (state : List α) (out : List (List α))
    (cur it ctr : Nat) (h : 1 ≤ it ∧ it ≤ fuel) : vecLoop c n M d e fuel state out cur it ctr ≠ .error .diverge := by
  induction fuel generalizing state out cur it ctr with
  | zero => omega
  | succ f ih =>
    simp only [vecLoop]
    refine bind_ne_diverge (mapM_ne_diverge (vecNode_ne_diverge c state) _) fun new => ?_
    by_cases hcur : cur < M
    · rw [if_pos hcur]
      generalize (if (abs _ <? d) = true then ctr - 1 else e) = ctr'
      generalize (abs _ <? d) = below
      by_cases hs : it - 1 = 0 ∨ below = true ∧ ctr' = 0
      · rw [if_pos hs]; exact pure_ne_diverge _
      · rw [if_neg hs]; exact ih _ _ _ _ _ (by omega)
    · rw [if_neg hcur]; simp

theorem vectorizedRun_ne_diverge (c : Cache α) (s : List α) (M : Int) (d : α) (e : Nat) :
    vectorizedRun c s M d e ≠ .error .diverge := by
  unfold vectorizedRun
  split
  · simp
  · split
    · simp
    · exact vecLoop_ne_diverge _ _ _ _ _ _ _ _ _ _ _ (by omega)

theorem need_ne_diverge {β : Type} (k : String) (o : Option β) : need k o ≠ .error .diverge := by
  cases o <;> simp [need]

theorem fillMatrix_ne_diverge (cs : List String) (as : List (Arc α)) (m : List (List α)) :
    fillMatrix cs as m ≠ .error .diverge := by
  induction as generalizing m with
  | nil => simp [fillMatrix]
  | cons a as ih =>
    unfold fillMatrix
    split
    · exact ih _
    · simp

theorem prepRow_ne_diverge (n : Node α) : prepRow n ≠ .error .diverge := by
  unfold prepRow
  refine bind_ne_diverge (need_ne_diverge _ _) fun _ => bind_ne_diverge ?_ fun _ =>
    bind_ne_diverge (need_ne_diverge _ _) fun _ => bind_ne_diverge (need_ne_diverge _ _) fun _ =>
    bind_ne_diverge (need_ne_diverge _ _) fun _ => pure_ne_diverge _
  unfold constOf
  split <;> simp

theorem prepare_ne_diverge (m : FCM α) : m.prepare ≠ .error .diverge := by
  unfold FCM.prepare
  exact bind_ne_diverge (mapM_ne_diverge (f := fun p : String × Node α => prepRow p.2) (fun p => prepRow_ne_diverge p.2) _) fun _ =>
    bind_ne_diverge (fillMatrix_ne_diverge _ _ _) fun _ => pure_ne_diverge _

theorem vectorRunStore_ne_diverge (m : FCM α) : m.vectorRunStore.1 ≠ .error .diverge := by
  unfold FCM.vectorRunStore
  have := vectorizedRun_ne_diverge m.cache m.stateVector m.maxIter m.stabilityDiff m.extraSteps
  split
  · simp
  · split <;> rename_i h <;> rw [h] at this
    · simpa using this
    · simp

theorem vectorized_ne_diverge (m : FCM α) : (FCM.vectorizedInference m).1 ≠ .error .diverge := by
  unfold FCM.vectorizedInference
  dsimp only
  split
  · exact vectorRunStore_ne_diverge _
  · have := prepare_ne_diverge m
    split <;> rename_i h <;> rw [h] at this
    · simpa using this
    · exact vectorRunStore_ne_diverge _

theorem run_ne_diverge (r : Bool) (m : FCM α) : (FCM.runInference r m).1 ≠ .error .diverge := by
  unfold FCM.runInference
  have h1 : (if r then FCM.resetExecution m else (.ok (), m)).1 ≠ .error .diverge := by
    split
    · exact forEach_ne_diverge resetOne_ne_diverge _ _
    · simp
  split <;> rename_i h <;> rw [h] at h1
  · simpa using h1
  · rename_i m1
    have h2 : (FCM.engine m1).1 ≠ .error .diverge := by
      unfold FCM.engine
      split
      · exact iterative_ne_diverge m1
      · exact vectorized_ne_diverge m1
    split <;> rename_i h' <;> rw [h'] at h2
    · simpa using h2
    · exact forEach_ne_diverge decideNode_ne_diverge _ _

/-- The rows of the output matrix keep their length. -/
theorem vecLoop_rows {c : Cache α} {n M : Nat} {d : α} {e fuel : Nat} {state : List α} {out out' : List (List α)}
    {cur it ctr : Nat} {k : Nat} (ho : ∀ r ∈ out, r.length = k)
    (h : vecLoop c n M d e fuel state out cur it ctr = .ok out') : ∀ r ∈ out', r.length = k := by
  induction fuel generalizing state out cur it ctr with
  | zero => simp [vecLoop] at h
  | succ f ih =>
    simp only [vecLoop] at h
    cases hnew : (List.range n).mapM (vecNode c state) with
    | error e => rw [hnew] at h; cases h
    | ok new =>
      rw [hnew] at h
      simp only [bind, Except.bind] at h
      have hz : ∀ r ∈ List.zipWith (fun r v => r.set cur v) out new, r.length = k := by
        intro r hr
        rw [List.mem_iff_getElem] at hr
        obtain ⟨i, hi, rfl⟩ := hr
        simp only [List.getElem_zipWith, List.length_set]
        exact ho _ (List.getElem_mem _)
      by_cases hcur : cur < M
      · rw [if_pos hcur] at h
        generalize (if (abs _ <? d) = true then ctr - 1 else e) = ctr' at h
        generalize (abs _ <? d) = below at h
        by_cases hs : it - 1 = 0 ∨ below = true ∧ ctr' = 0
        · rw [if_pos hs] at h; cases h; exact hz
        · rw [if_neg hs] at h; exact ih hz h
      · rw [if_neg hcur] at h; cases h

theorem vectorizedRun_rows {c : Cache α} {s0 : List α} {M : Int} {d : α} {e : Nat} {out : List (List α)}
    (h : vectorizedRun c s0 M d e = .ok out) : 0 < M ∧ ∀ r ∈ out, r.length = M.toNat := by
  unfold vectorizedRun at h
  split at h
  · cases h
  · split at h
    · cases h
    · refine ⟨by omega, vecLoop_rows ?_ h⟩
      intro r hr
      simp only [List.mem_map] at hr
      obtain ⟨v, _, rfl⟩ := hr
      simp

end PyFCM
