import Verif.Lemmas.RunTop
/-
Lemmas about the vectorised engine.
-/
namespace PyFCM
open Arith Spec

set_option linter.unusedSectionVars false

variable {α : Type} [Arith α]

theorem mapM_length {β γ : Type} {f : β → Except Err γ} {xs : List β} {ys : List γ} (h : xs.mapM f = .ok ys) :
    ys.length = xs.length := by
  induction xs generalizing ys with
  | nil => simp [pure, Except.pure] at h; simp [← h]
  | cons x xs ih =>
    rw [List.mapM_cons] at h
    cases hx : f x with
    | error e => rw [hx] at h; cases h
    | ok y =>
      rw [hx] at h
      cases hr : xs.mapM f with
      | error e => rw [hr] at h; cases h
      | ok zs =>
        rw [hr] at h
        cases h
        simp [ih hr]

theorem mapM_getElem {β γ : Type} {f : β → Except Err γ} {xs : List β} {ys : List γ} (h : xs.mapM f = .ok ys)
    (i : Nat) (h1 : i < xs.length) (h2 : i < ys.length) : f xs[i] = .ok ys[i] := by
  induction xs generalizing ys i with
  | nil => simp at h1
  | cons x xs ih =>
    rw [List.mapM_cons] at h
    cases hx : f x with
    | error e => rw [hx] at h; cases h
    | ok y =>
      rw [hx] at h
      cases hr : xs.mapM f with
      | error e => rw [hr] at h; cases h
      | ok zs =>
        rw [hr] at h
        cases h
        cases i with
        | zero => simpa using hx
        | succ i => simpa using ih hr i (by simpa using h1) (by simpa using h2)

/-- Writing columns from 1 on keeps the number of rows and the first column. -/
theorem vecLoop_heads {c : Cache α} {n M : Nat} {d : α} {e fuel : Nat} {state : List α} {out out' : List (List α)}
    {cur it ctr : Nat} (hc : 1 ≤ cur) (ho : out.length = n)
    (h : vecLoop c n M d e fuel state out cur it ctr = .ok out') :
    out'.length = n ∧ out'.map (·.head?) = out.map (·.head?) := by
  induction fuel generalizing state out cur it ctr with
  | zero => simp [vecLoop] at h
  | succ f ih =>
    simp only [vecLoop] at h
    cases hnew : (List.range n).mapM (vecNode c state) with
    | error e => rw [hnew] at h; cases h
    | ok new =>
      rw [hnew] at h
      simp only [bind, Except.bind] at h
      have hnl : new.length = n := by simpa using mapM_length hnew
      have key : (List.zipWith (fun r v => r.set cur v) out new).map (·.head?) = out.map (·.head?) := by
        apply List.ext_getElem
        · simp [ho, hnl]
        · intro i h1 h2
          simp only [List.getElem_map, List.getElem_zipWith]
          cases out[i]'(by simpa using h2) with
          | nil => simp
          | cons a l =>
            obtain ⟨k, rfl⟩ : ∃ k, cur = k + 1 := ⟨cur - 1, by omega⟩
            simp
      have hl : (List.zipWith (fun r v => r.set cur v) out new).length = n := by simp [ho, hnl]
      repeat' split at h
      all_goals first
        | (simp only [pure, Except.pure, Except.ok.injEq] at h; subst h; exact ⟨hl, key⟩)
        | (injection h; done)
        | (obtain ⟨a, b⟩ := ih (by omega) hl h; exact ⟨a, by rw [b, key]⟩)

theorem vectorizedRun_heads {c : Cache α} {s0 : List α} {M : Int} {d : α} {e : Nat} {out : List (List α)}
    (h : vectorizedRun c s0 M d e = .ok out) :
    out.length = s0.length ∧ out.map (·.head?) = s0.map some := by
  unfold vectorizedRun at h
  split at h
  · cases h
  · split at h
    · cases h
    · obtain ⟨a, b⟩ := vecLoop_heads (Nat.le_refl _) (by simp) h
      refine ⟨a, ?_⟩
      rw [b]
      have hm : 0 < M.toNat := by omega
      obtain ⟨k, hk⟩ : ∃ k, M.toNat = k + 1 := ⟨M.toNat - 1, by omega⟩
      apply List.ext_getElem
      · simp
      · intro i h1 h2
        simp [hk, List.replicate_succ]

theorem vectorizedRun_state {c : Cache α} {s0 : List α} {M : Int} {d : α} {e : Nat} {out : List (List α)}
    (h : vectorizedRun c s0 M d e = .ok out) : out.map (fun r => r.headD (lit 2)) = s0 := by
  obtain ⟨hl, hh⟩ := vectorizedRun_heads h
  apply List.ext_getElem
  · simp [hl]
  · intro i h1 h2
    have h1' : i < out.length := by simpa using h1
    have : (out.map (·.head?))[i]'(by simpa using h1) = (s0.map some)[i]'(by simpa using h2) := by
      simp only [hh]
    simp only [List.getElem_map] at this ⊢
    rw [List.headD_eq_head?_getD, this]; rfl

theorem storeRows_get {k : Nat} {cs : List String} {rs : List (List α)} {d : Dict (List α)} (hnd : cs.Nodup)
    (hl : cs.length ≤ rs.length) :
    (∀ c, c ∉ cs → (storeRows k cs rs d).get? c = d.get? c) ∧
    (∀ i (h : i < cs.length) (h' : i < rs.length), (storeRows k cs rs d).get? cs[i] = some (rs[i].take k)) ∧
    ((∀ c ∈ cs, c ∈ d.keys) → (storeRows k cs rs d).keys = d.keys) := by
  induction cs generalizing rs d with
  | nil => cases rs <;> exact ⟨fun _ _ => rfl, fun i h => by simp at h, fun _ => rfl⟩
  | cons c cs ih =>
    cases rs with
    | nil => simp at hl
    | cons r rs =>
      rw [List.nodup_cons] at hnd
      obtain ⟨h1, h2, h3⟩ := ih (rs := rs) (d := d.set c (r.take k)) hnd.2 (by simpa using hl)
      simp only [storeRows]
      refine ⟨?_, ?_, ?_⟩
      · intro x hx
        rw [List.mem_cons, not_or] at hx
        rw [h1 x hx.2, Dict.get?_set_ne _ _ (Ne.symm hx.1)]
      · intro i hi hi'
        cases i with
        | zero => simp only [List.getElem_cons_zero]; rw [h1 c hnd.1]; simp
        | succ i => simpa using h2 i (by simpa using hi) (by simpa using hi')
      · intro hall
        have hc := hall c (by simp)
        rw [h3]
        · exact Dict.keys_set_of_mem _ _ _ hc
        · intro x hx
          rw [Dict.keys_set_of_mem _ _ _ hc]; exact hall x (by simp [hx])

/-- The trajectories read back from an output matrix. -/
def FCM.stored (m : FCM α) (result : List (List α)) : Dict (List α) :=
  storeRows (colIndex (result.headD []) m.maxIter.toNat) m.topology.keys result m.execution

theorem vectorRunStore_ok {m m' : FCM α} (h : m.vectorRunStore = (.ok (), m')) :
    ∃ result, vectorizedRun m.cache m.stateVector m.maxIter m.stabilityDiff m.extraSteps = .ok result ∧
      m.stateVector ≠ [] ∧
      m' = { m with execution := m.stored result } := by
  unfold FCM.vectorRunStore at h
  split at h
  · cases h
  · rename_i hs
    split at h
    · cases h
    · rename_i result hr
      cases h
      refine ⟨result, hr, by simp [hs], ?_⟩
      have := vectorizedRun_state hr
      rw [this]
      rfl

/-- What a successful call of the vectorised engine does. -/
theorem vectorized_ok {m m' : FCM α} (h : FCM.vectorizedInference m = (.ok (), m')) :
    ∃ cache sv result,
      (m.prepared = true ∧ cache = m.cache ∧
        sv = m.topology.map (fun p => p.2.value) ++ m.stateVector.drop m.topology.length ∨
       m.prepared = false ∧ m.prepare = .ok cache ∧ sv = m.topology.map (fun p => p.2.value)) ∧
      sv ≠ [] ∧
      vectorizedRun cache sv m.maxIter m.stabilityDiff m.extraSteps = .ok result ∧
      m' = { m with prepared := true, cache := cache, stateVector := sv, execution := m.stored result } := by
  unfold FCM.vectorizedInference at h
  dsimp only at h
  split at h
  · rename_i hp
    obtain ⟨result, hr, hne, rfl⟩ := vectorRunStore_ok h
    refine ⟨m.cache, _, result, Or.inl ⟨hp, rfl, ?_⟩, hne, hr, ?_⟩
    · simp
    · cases m; cases hp; rfl
  · rename_i hp
    split at h
    · cases h
    · rename_i c hc
      obtain ⟨result, hr, hne, rfl⟩ := vectorRunStore_ok h
      exact ⟨c, _, result, Or.inr ⟨by simpa using hp, hc, rfl⟩, hne, hr, rfl⟩

/-- Converse: with the data of a prepared map, the engine runs on exactly that data. -/
theorem vectorized_prepared {m : FCM α} (hp : m.prepared = true) {sv : List α}
    (hsv : sv = m.topology.map (fun p => p.2.value) ++ m.stateVector.drop m.topology.length) (hne : sv ≠ [])
    {result : List (List α)}
    (hr : vectorizedRun m.cache sv m.maxIter m.stabilityDiff m.extraSteps = .ok result) :
    FCM.vectorizedInference m = (.ok (), { m with stateVector := sv, execution := m.stored result }) := by
  unfold FCM.vectorizedInference
  dsimp only
  rw [if_pos hp]
  have hsv' : (m.topology.map fun p => p.2.value) ++ m.stateVector.drop (m.topology.map fun p => p.2.value).length = sv := by
    rw [hsv]; simp
  rw [hsv']
  unfold FCM.vectorRunStore
  dsimp only
  split
  · exact absurd rfl hne
  · rw [hr]
    dsimp only
    rw [vectorizedRun_state hr]
    rfl

end PyFCM
