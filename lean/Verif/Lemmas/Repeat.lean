import Verif.Lemmas.Vector
/-
Running twice; `reset_execution` after a run; `clear_execution`.
-/
namespace PyFCM
open Arith Spec

set_option linter.unusedSectionVars false

variable {α : Type} [Arith α]

theorem forEach_success {σ ι : Type} {f : ι → PyM σ Unit} (P : σ → Prop) {xs : List ι}
    (hf : ∀ x ∈ xs, ∀ s, P s → ∃ s', f x s = (.ok (), s') ∧ P s') {s : σ} (hs : P s) :
    ∃ s', PyM.forEach xs f s = (.ok (), s') ∧ P s' := by
  induction xs generalizing s with
  | nil => exact ⟨s, rfl, hs⟩
  | cons x xs ih =>
    obtain ⟨s1, h1, p1⟩ := hf x (by simp) s hs
    obtain ⟨s2, h2, p2⟩ := ih (fun y hy => hf y (by simp [hy])) p1
    exact ⟨s2, by simp [PyM.forEach, h1, h2], p2⟩

/-- Every concept has a non-empty trajectory. -/
def Started (m : FCM α) : Prop := ∀ c ∈ m.topology.keys, ∃ v rest, m.execution.get? c = some (v :: rest)

theorem reset_success {m : FCM α} (h : Started m) : ∃ m', FCM.resetExecution m = (.ok (), m') := by
  have := forEach_success (f := resetOne (α := α)) (xs := m.topology.keys)
    (fun s => ∀ c ∈ m.topology.keys, ∃ v rest, s.execution.get? c = some (v :: rest)) ?_ h
  · obtain ⟨m', hm', _⟩ := this; exact ⟨m', hm'⟩
  · intro c hc s hs
    obtain ⟨v, rest, hx⟩ := hs c hc
    cases hn : s.topology.get? c with
    | none =>
      refine ⟨s, by simp [resetOne, hn], hs⟩
    | some n =>
      refine ⟨_, by simp only [resetOne, hn, hx]; rfl, ?_⟩
      intro d hd
      simp only [Dict.get?_set]
      split
      · exact ⟨v, [], rfl⟩
      · exact hs d hd

theorem reset_started {m m' : FCM α} (hm : Inv m) (h : FCM.resetExecution m = (.ok (), m')) : Started m := by
  obtain ⟨_, _, _, _, hall⟩ := reset_spec hm h
  intro c hc
  obtain ⟨n, v, rest, _, hx, _⟩ := hall c hc
  exact ⟨v, rest, hx⟩

/-- What both engines guarantee about the state they leave, for a run started at the freshly reset map `m1`. -/
structure AfterRun (m1 m' : FCM α) : Prop where
  eq : m' = { m1 with topology := m'.topology, execution := m'.execution, iterations := m'.iterations,
                      prepared := m'.prepared, cache := m'.cache, stateVector := m'.stateVector }
  keys : m'.topology.keys = m1.topology.keys
  ekeys : m'.execution.keys = m1.execution.keys
  static : ∀ c, (m'.topology.get? c).map Node.static = (m1.topology.get? c).map Node.static
  heads : ∀ c n, m1.topology.get? c = some n → ∃ rest, m'.execution.get? c = some (n.value :: rest)

/-- A map as `reset_execution` leaves it. -/
structure Fresh (m : FCM α) : Prop where
  inv : Inv m
  keys : SameKeys m
  aux : AuxEmpty m
  exe : ∀ c n, m.topology.get? c = some n → m.execution.get? c = some [n.value]

theorem reset_fresh {m m1 : FCM α} (hm : Inv m) (h : FCM.resetExecution m = (.ok (), m1)) : Fresh m1 := by
  obtain ⟨e1, kt1, ke1, hk, hall1⟩ := reset_spec hm h
  have get1 : ∀ c n, m1.topology.get? c = some n → ∃ n0 v, n = setVal v n0 ∧ m1.execution.get? c = some [v] := by
    intro c n hn
    have hc : c ∈ m.topology.keys := by rw [← kt1]; exact Dict.mem_keys_of_get? hn
    obtain ⟨n0, v, rest, a, b, d, f⟩ := hall1 c hc
    rw [hn] at d; cases d
    exact ⟨n0, v, rfl, f⟩
  refine ⟨by have := reset_pres m hm; rwa [h] at this, by intro c; rw [kt1, ke1]; exact hk c, ?_, ?_⟩
  · intro c n hn
    obtain ⟨n0, v, rfl, _⟩ := get1 c n hn; rfl
  · intro c n hn
    obtain ⟨n0, v, rfl, hx⟩ := get1 c n hn; exact hx

theorem setVal_self {n : Node α} (h : n.aux = []) : some (setVal n.value n) = some n := by
  cases n; cases h; rfl

theorem setVal_of_static {n n' : Node α} (h : n'.static = n.static) (v : α) : setVal v n' = setVal v n := by
  rw [Node.static_eq_iff] at h
  rw [h]; rfl

/-- Resetting after a run gives the map the run started from, up to the engine's private data. -/
theorem reset_after_run {m1 m' : FCM α} (hf : Fresh m1) (ha : AfterRun m1 m') (hm' : Inv m') :
    FCM.resetExecution m' = (.ok (), { m1 with iterations := m'.iterations, prepared := m'.prepared, cache := m'.cache, stateVector := m'.stateVector }) := by
  have hst : Started m' := by
    intro c hc
    rw [ha.keys] at hc
    obtain ⟨n, hn⟩ := Dict.exists_get?_of_mem hc
    obtain ⟨rest, hx⟩ := ha.heads c n hn
    exact ⟨_, rest, hx⟩
  obtain ⟨m2, h2⟩ := reset_success hst
  obtain ⟨e2, kt2, ke2, _, hall2⟩ := reset_spec hm' h2
  have htop : m2.topology = m1.topology := by
    have hk : m2.topology.keys = m1.topology.keys := kt2.trans ha.keys
    refine Dict.ext_get? _ _ hk (by rw [hk]; exact hf.inv.tnd) fun c => ?_
    by_cases hc : c ∈ m1.topology.keys
    · obtain ⟨n, hn⟩ := Dict.exists_get?_of_mem hc
      obtain ⟨n', v, rest, hn', hx', hn2, _⟩ := hall2 c (by rw [ha.keys]; exact hc)
      obtain ⟨rest', hx⟩ := ha.heads c n hn
      rw [hx] at hx'; cases hx'
      have hs := ha.static c
      rw [hn, hn', Option.map_some, Option.map_some, Option.some.injEq] at hs
      rw [hn2, hn, setVal_of_static hs]
      have haux := hf.aux c n hn
      exact setVal_self haux
    · rw [(Dict.get?_eq_none_iff _ _).2 hc, (Dict.get?_eq_none_iff _ _).2 (by rw [hk]; exact hc)]
  have hexe : m2.execution = m1.execution := by
    have hk : m2.execution.keys = m1.execution.keys := ke2.trans ha.ekeys
    refine Dict.ext_get? _ _ hk (by rw [hk]; exact hf.inv.xnd) fun c => ?_
    by_cases hc : c ∈ m1.topology.keys
    · obtain ⟨n, hn⟩ := Dict.exists_get?_of_mem hc
      obtain ⟨n', v, rest, hn', hx', hn2, hx2⟩ := hall2 c (by rw [ha.keys]; exact hc)
      obtain ⟨rest', hx⟩ := ha.heads c n hn
      rw [hx] at hx'; cases hx'
      rw [hx2, hf.exe c n hn]
    · have hc1 : c ∉ m1.execution.keys := fun h => hc ((hf.keys c).2 h)
      rw [(Dict.get?_eq_none_iff _ _).2 hc1, (Dict.get?_eq_none_iff _ _).2 (by rw [hk]; exact hc1)]
  rw [h2, e2, htop, hexe, ha.eq]

/-- The decision functions reject an empty trajectory. -/
theorem decFn_nil (f : DecFn) (p : Int) (hp : p < 0) (v : α) : f.run [] p ≠ .ok v := by
  cases f
  · show Decision.last [] p ≠ _
    unfold Decision.last
    rw [if_neg (by omega)]
    simp [pyIdxBack]
  · show Decision.mean [] p ≠ _
    unfold Decision.mean
    rw [if_pos (by omega)]
    simp [Decision.meanSum, bind, Except.bind]
  · show Decision.exited [] p ≠ _
    unfold Decision.exited
    rw [if_neg (by omega)]
    simp [pymax]

theorem topology_values_length (m : FCM α) : (m.topology.map fun p => p.2.value).length = m.topology.length := by simp

/-- Position of a concept. -/
theorem get?_getElem {β : Type} {d : Dict β} (hnd : d.keys.Nodup) (i : Nat) (h : i < d.length) :
    d.get? (d.keys[i]'(by simpa [Dict.keys] using h)) = some (d[i]).2 := by
  apply Dict.get?_of_mem hnd
  have : (d.keys[i]'(by simpa [Dict.keys] using h)) = (d[i]).1 := by simp [Dict.keys]
  rw [this]
  exact List.getElem_mem h

theorem run_after {m m' : FCM α} (hm : Inv m) (h : FCM.runInference true m = (.ok (), m')) :
    ∃ m1 m2, FCM.resetExecution m = (.ok (), m1) ∧ FCM.engine m1 = (.ok (), m2) ∧ FCM.decideAll m2 = (.ok (), m') ∧
      Fresh m1 ∧ AfterRun m1 m' ∧ Inv m2 := by
  obtain ⟨m1, m2, h1, h2, h3⟩ := runInference_ok h
  simp only [if_true] at h1
  have hf := reset_fresh hm h1
  refine ⟨m1, m2, h1, h2, h3, hf, ?_⟩
  have hm2 : Inv m2 := by have := engine_pres m1 hf.inv; rwa [h2] at this
  refine ⟨?_, hm2⟩
  obtain ⟨e3, kt3, hall3⟩ := decideAll_spec hm2 h3
  have hx3 : m'.execution = m2.execution := by rw [e3]
  have hdec : ∀ c, c ∈ m2.topology.keys → ∃ x rest, m2.execution.get? c = some (x :: rest) := by
    intro c hc
    obtain ⟨n, hn⟩ := Dict.exists_get?_of_mem hc
    obtain ⟨xs, v, hx, hv, _⟩ := hall3 c n hn
    cases xs with
    | nil => exact absurd hv (decFn_nil _ _ (by simp; omega) _)
    | cons x rest => exact ⟨x, rest, hx⟩
  have hstat3 : ∀ c, (m'.topology.get? c).map Node.static = (m2.topology.get? c).map Node.static := by
    intro c
    by_cases hc : c ∈ m2.topology.keys
    · obtain ⟨n, hn⟩ := Dict.exists_get?_of_mem hc
      obtain ⟨xs, v, _, _, hn'⟩ := hall3 c n hn
      rw [hn, hn']; rfl
    · rw [(Dict.get?_eq_none_iff _ _).2 hc, (Dict.get?_eq_none_iff _ _).2 (by rw [kt3]; exact hc)]
  unfold FCM.engine at h2
  split at h2
  · obtain ⟨hr, _⟩ := iterative_spec hf.inv hf.keys hf.aux hf.exe h2
    have e2 := hr.same.eq
    refine ⟨?_, kt3.trans hr.same.keys, by rw [hx3]; exact hr.same.ekeys, fun c => (hstat3 c).trans (hr.same.static c), ?_⟩
    · rw [e3, e2]
    · intro c n hn
      have hc : c ∈ m1.topology.keys := Dict.mem_keys_of_get? hn
      obtain ⟨x, rest, hx⟩ := hdec c (by rw [hr.same.keys]; exact hc)
      refine ⟨rest, ?_⟩
      rw [hx3, hx]
      have hi := hr.init c hc
      have h1x : ({ m1 with iterations := 1 } : FCM α).execution.get? c = some [n.value] := hf.exe c n hn
      simp [at', FCM.traj, hx, h1x] at hi
      rw [hi]
  · obtain ⟨cache, sv, result, hcase, hne, hres, e2⟩ := vectorized_ok h2
    obtain ⟨hrl, hrh⟩ := vectorizedRun_heads hres
    have hlen : m1.topology.keys.length = m1.topology.length := by simp [Dict.keys]
    have hsvl : m1.topology.length ≤ sv.length := by
      rcases hcase with ⟨_, _, rfl⟩ | ⟨_, _, rfl⟩ <;> simp
    have hst := storeRows_get (k := colIndex (result.headD []) m1.maxIter.toNat) (cs := m1.topology.keys) (rs := result)
      (d := m1.execution) hf.inv.tnd (by omega)
    have hx2 : m2.execution = m1.stored result := by rw [e2]
    have ht2 : m2.topology = m1.topology := by rw [e2]
    refine ⟨?_, ?_, ?_, ?_, ?_⟩
    · rw [e3, e2]
    · rw [kt3, ht2]
    · rw [hx3, hx2]; exact hst.2.2 fun c hc => (hf.keys c).1 hc
    · intro c; rw [hstat3 c, ht2]
    · intro c n hn
      have hc : c ∈ m1.topology.keys := Dict.mem_keys_of_get? hn
      obtain ⟨i, hi, rfl⟩ := List.getElem_of_mem hc
      have hi' : i < m1.topology.length := by rw [← hlen]; exact hi
      have hir : i < result.length := by omega
      have hg := hst.2.1 i hi hir
      obtain ⟨x, rest, hx⟩ := hdec (m1.topology.keys[i]) (by rw [ht2]; exact hc)
      refine ⟨rest, ?_⟩
      rw [hx3, hx]
      have hx' : m2.execution.get? m1.topology.keys[i] = some (result[i].take (colIndex (result.headD []) m1.maxIter.toNat)) := by
        rw [hx2]; exact hg
      rw [hx, Option.some.injEq] at hx'
      have hhead : result[i].head? = some (sv[i]'(by omega)) := by
        have : (result.map (·.head?))[i]'(by simpa using hir) = (sv.map some)[i]'(by simp; omega) := by simp only [hrh]
        simpa using this
      have hsv : sv[i]'(by omega) = n.value := by
        have hval : n.value = (m1.topology[i]).2.value := by
          have := get?_getElem hf.inv.tnd i hi'
          rw [hn, Option.some.injEq] at this
          rw [this]
        rw [hval]
        have hi2 : i < (m1.topology.map fun p => p.2.value).length := by simpa using hi'
        rcases hcase with ⟨_, _, rfl⟩ | ⟨_, _, rfl⟩
        · rw [List.getElem_append_left hi2]; simp
        · simp
      have : result[i].take (colIndex (result.headD []) m1.maxIter.toNat) = x :: rest := hx'.symm
      have hxh : x = n.value := by
        cases hri : result[i] with
        | nil => rw [hri] at this; simp at this
        | cons a l =>
          rw [hri] at this hhead
          cases hk : colIndex (result.headD []) m1.maxIter.toNat with
          | zero => rw [hk] at this; simp at this
          | succ k =>
            rw [hk] at this
            simp at this hhead
            rw [← this.1, hhead, hsv]
      rw [hxh]

theorem run_twice {m m' : FCM α} (hm : Inv m) (h : FCM.runInference true m = (.ok (), m')) :
    FCM.runInference true m' = (.ok (), m') := by
  obtain ⟨m1, m2, h1, h2, h3, hf, ha, hm2⟩ := run_after hm h
  have hm' : Inv m' := by have := runInference_pres true m hm; rwa [h] at this
  have hr := reset_after_run hf ha hm'
  obtain ⟨e3, kt3, _⟩ := decideAll_spec hm2 h3
  have key : FCM.engine { m1 with iterations := m'.iterations, prepared := m'.prepared, cache := m'.cache, stateVector := m'.stateVector } = (.ok (), m2) := by
    unfold FCM.engine at h2 ⊢
    split at h2
    · rename_i hd
      rw [if_pos hd]
      have hs : m'.prepared = m1.prepared ∧ m'.cache = m1.cache ∧ m'.stateVector = m1.stateVector := by
        obtain ⟨hr2, _⟩ := iterative_spec hf.inv hf.keys hf.aux hf.exe h2
        rw [e3, hr2.same.eq]; exact ⟨rfl, rfl, rfl⟩
      rw [hs.1, hs.2.1, hs.2.2]
      exact h2
    · rename_i hd
      rw [if_neg hd]
      obtain ⟨cache, sv, result, hcase, hne, hres, e2⟩ := vectorized_ok h2
      have hs : m'.prepared = true ∧ m'.cache = cache ∧ m'.stateVector = sv ∧ m'.iterations = m1.iterations := by
        rw [e3, e2]; exact ⟨rfl, rfl, rfl, rfl⟩
      rw [hs.1, hs.2.1, hs.2.2.1, hs.2.2.2]
      have := vectorized_prepared (m := { m1 with iterations := m1.iterations, prepared := true, cache := cache, stateVector := sv })
        rfl (sv := sv) ?_ hne hres
      · rw [this, e2]; rfl
      · dsimp only
        rcases hcase with ⟨_, _, rfl⟩ | ⟨_, _, rfl⟩
        · congr 1
          rw [List.drop_append]; simp
        · rw [List.drop_eq_nil_of_le (by simp)]; simp
  unfold FCM.runInference
  rw [if_pos rfl, hr]
  dsimp only
  rw [key]
  exact h3

/-! ### clear_execution -/

def ClearRel (_ : String) (n : Option (Node α)) (xs : Option (List α)) (n' : Option (Node α)) (xs' : Option (List α)) :
    Prop :=
  match n with
  | none => n' = none ∧ xs' = xs
  | some n => n' = some (setVal (lit 0) n) ∧ xs' = some [lit 0]

theorem clearOne_touch (c : String) (m m' : FCM α) (h : clearOne c m = (.ok (), m')) :
    Touch c m m' ∧ ClearRel c (m.topology.get? c) (m.execution.get? c) (m'.topology.get? c) (m'.execution.get? c) := by
  unfold clearOne at h
  split at h
  · rename_i hn
    cases h
    rw [hn]
    exact ⟨Touch.refl _ _, rfl, rfl⟩
  · rename_i n hn
    cases h
    refine ⟨Touch.setBoth (Dict.mem_keys_of_get? hn) _ _, ?_⟩
    rw [hn]
    exact ⟨by simp [setVal], by simp⟩

theorem clear_spec {m : FCM α} (hm : Inv m) : ∃ m', FCM.clearExecution m = (.ok (), m') ∧
    m' = { m with topology := m'.topology, execution := m'.execution } ∧ m'.topology.keys = m.topology.keys ∧
    ∀ c n, m.topology.get? c = some n →
      m'.topology.get? c = some (setVal (lit 0) n) ∧ m'.execution.get? c = some [lit 0] := by
  obtain ⟨m', h, _⟩ := forEach_success (f := clearOne (α := α)) (xs := m.topology.keys) (s := m) (fun _ => True)
    (fun c _ s _ => by
      cases hn : s.topology.get? c with
      | none => exact ⟨s, by simp [clearOne, hn], trivial⟩
      | some n => exact ⟨_, by simp only [clearOne, hn]; rfl, trivial⟩) trivial
  refine ⟨m', h, ?_⟩
  obtain ⟨e, kt, _, _, hin⟩ := forEach_touch ClearRel clearOne_touch hm.tnd h
  refine ⟨e, kt, fun c n hn => ?_⟩
  have := hin c (Dict.mem_keys_of_get? hn)
  rw [hn] at this
  exact this

end PyFCM
