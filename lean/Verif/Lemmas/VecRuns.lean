import Verif.Lemmas.Congr
import Verif.Props.Success
import Verif.Props.RlCmeans
import Verif.Props.Contract
/-
Runs of the vectorised engine: when it returns, and what it records, in terms of the map as that engine sees it.
-/
namespace PyFCM
open Arith

namespace Spec

variable {α : Type} [Arith α]

/-- `x` is an endless run of the recurrence. -/
def Orbit (N : Net α) (cs : List String) (x : Nat → String → α) : Prop :=
  ∀ t, ∀ c ∈ cs, next N (x t) c = some (.ok (x (t + 1) c))

/-- The sum of the activations changed by less than `d` in step `s`. -/
def Level (cs : List String) (x : Nat → String → α) (d : α) (s : Nat) : Prop :=
  (Arith.abs (total (cs.map (x s)) - total (cs.map (x (s - 1)))) <? d) = true

end Spec

open Spec

variable {α : Type} [Arith α]

omit [Arith α] in
theorem fillMatrix_total {ks : List String} : ∀ (as : List (Arc α)) (mat : List (List α)),
    (∀ a ∈ as, a.origin ∈ ks ∧ a.dest ∈ ks) → ∃ r, fillMatrix ks as mat = .ok r
  | [], mat, _ => ⟨mat, rfl⟩
  | a :: as, mat, h => by
    unfold fillMatrix
    rw [if_pos (h a (by simp))]
    exact fillMatrix_total as _ fun b hb => h b (by simp [hb])

/-- Without earlier exceptions the data for the vectorised engine can be prepared. -/
theorem prepare_total {m : FCM α} (hm : CleanInv m) : ∃ c, m.prepare = .ok c := by
  have hrow : ∀ p ∈ m.topology, ∃ r, prepRow p.2 = .ok r := by
    intro p hp
    have hg : m.topology.get? p.1 = some p.2 := Dict.get?_of_mem hm.inv.tnd hp
    have hf := (hm.good _ _ hg).full
    obtain ⟨f, e1⟩ := Option.isSome_iff_exists.1 hf.fn
    obtain ⟨a, e2⟩ := Option.isSome_iff_exists.1 hf.argsVect
    obtain ⟨um, e3⟩ := Option.isSome_iff_exists.1 hf.useMem
    obtain ⟨ex, e4⟩ := Option.isSome_iff_exists.1 hf.exec
    have hok : f.Ok := (hm.inv.nodes _ _ hg).fn f e1
    have hc : Activation.getConstByName f.name = some f.fn.id := by rw [getConst_eq, hok]; rfl
    unfold prepRow constOf
    rw [e1, e2, e3, e4]
    simp only [need, bind, Except.bind, hc]
    exact ⟨_, rfl⟩
  obtain ⟨rows, h1, -⟩ := mapM_exists (l := m.topology) (f := fun p => prepRow p.2) (P := fun _ => True)
    fun p hp => by obtain ⟨r, hr⟩ := hrow p hp; exact ⟨r, hr, trivial⟩
  obtain ⟨mat, h2⟩ := fillMatrix_total m.arcList
    (List.replicate m.topology.length (List.replicate m.topology.length (lit 0))) hm.inv.ends
  unfold FCM.prepare
  rw [h1]
  simp only [bind, Except.bind, h2]
  exact ⟨_, rfl⟩

section Runs

set_option linter.unusedSectionVars false

variable [Exact α]

/-- The columns of the output matrix are the states of the run. -/
theorem orbit_cols {m : FCM α} (hm : CleanInv m) (hf : KwArgs m) {c : Cache α} (hp : m.prepare = .ok c)
    {x : Nat → String → α} (h0 : ∀ k ∈ m.topology.keys, x 0 k = at' m.traj 0 k) (hx : Orbit m.net.vector m.topology.keys x)
    {l : Nat} (hl : 0 < l) : Cols c m.start ((List.range l).map fun t => m.topology.keys.map (x t)) := by
  have hlk : m.topology.keys.length = m.topology.length := by simp [Dict.keys]
  have hsl : m.start.length = m.topology.length := by simp [FCM.start, Dict.keys]
  refine ⟨?_, ?_, ?_⟩
  · rw [List.getElem?_map, List.getElem?_range hl]
    exact congrArg some (List.map_congr_left h0)
  · intro y hy
    obtain ⟨t, -, rfl⟩ := List.mem_map.1 hy
    rw [hsl, List.length_map, hlk]
  · intro t y z hy hz
    have e1 : y = m.topology.keys.map (x t) := by
      rw [List.getElem?_map] at hy
      obtain ⟨s, a, b⟩ := Option.map_eq_some_iff.1 hy
      obtain ⟨q, rfl⟩ := List.getElem?_eq_some_iff.1 a
      rw [List.getElem_range] at b
      exact b.symm
    have e2 : z = m.topology.keys.map (x (t + 1)) := by
      rw [List.getElem?_map] at hz
      obtain ⟨s, a, b⟩ := Option.map_eq_some_iff.1 hz
      obtain ⟨q, rfl⟩ := List.getElem?_eq_some_iff.1 a
      rw [List.getElem_range] at b
      exact b.symm
    subst e1 e2
    have hcol : ∀ k ∈ m.topology.keys, (m.topology.keys.map (x t)).getD (m.topology.keys.idxOf k) (lit 0) = x t k := by
      intro k hk
      have hi := List.idxOf_lt_length_iff.2 hk
      rw [List.getD_eq_getElem?_getD, List.getElem?_map, List.getElem?_eq_getElem hi, keys_getElem_idxOf hk]
      rfl
    have e3 : m.topology.keys.map (x (t + 1)) =
        (List.range m.start.length).map fun i => x (t + 1) (m.topology.keys.getD i "") := by
      apply List.ext_getElem
      · simp [hsl, hlk]
      · intro i h1 h2
        have : i < m.topology.keys.length := by simpa using h1
        simp [List.getD_eq_getElem?_getD, this]
    rw [e3]
    refine mapM_ok_of fun i hi => ?_
    have hi : i < m.topology.length := by rw [← hsl]; exact List.mem_range.1 hi
    have hi' : i < m.topology.keys.length := by omega
    rw [vecNode_vector hm hp hf (by rw [List.length_map, hlk]) hi]
    have hk : m.topology.keys[i] ∈ m.topology.keys := List.getElem_mem hi'
    have e4 : m.topology.keys.getD i "" = m.topology.keys[i] := by simp [List.getD_eq_getElem?_getD, hi']
    rw [e4, ← hx t _ hk]
    refine next_congr (hcol _ hk) fun r hr => ?_
    rw [show m.net.vector.rels = (latestArcs m.arcList).map Arc.toSpec from latest_map _] at hr
    obtain ⟨a, ha, rfl⟩ := List.mem_map.1 hr
    exact hcol _ (hm.inv.ends a ((latestArcs_sublist _).subset ha)).1

theorem near_level {cs : List String} {x : Nat → String → α} {d : α} {l s : Nat} (hs : s < l) :
    Near d ((List.range l).map fun t => cs.map (x t)) s ↔ Level cs x d s := by
  have e : ∀ t, t < l → ((List.range l).map fun t => cs.map (x t)).getD t [] = cs.map (x t) := by
    intro t ht
    simp [List.getD_eq_getElem?_getD, ht]
  unfold Near Level
  rw [e s hs, e (s - 1) (by omega)]
  rfl

theorem stops_level {cs : List String} {x : Nat → String → α} {d : α} {w l : Nat} :
    StopsAt (Near d ((List.range l).map fun t => cs.map (x t))) w l ↔ StopsAt (Level cs x d) w l := by
  constructor
  · intro h
    refine ⟨h.above, fun s a b => (near_level b).1 (h.window s a b), fun k a b => ?_⟩
    obtain ⟨s, s1, s2, s3⟩ := h.least k a b
    exact ⟨s, s1, s2, fun q => s3 ((near_level (by omega)).2 q)⟩
  · intro h
    refine ⟨h.above, fun s a b => (near_level b).2 (h.window s a b), fun k a b => ?_⟩
    obtain ⟨s, s1, s2, s3⟩ := h.least k a b
    exact ⟨s, s1, s2, fun q => s3 ((near_level (by omega)).1 q)⟩

/-- What the vectorised engine records. -/
theorem vec_records {m m' : FCM α} (hm : CleanInv m) (hco : Coherent m) (hd : m.debug = false) (hne : m.topology ≠ [])
    (hf : KwArgs m)
    {x : Nat → String → α} (h0 : ∀ k ∈ m.topology.keys, x 0 k = at' m.traj 0 k) (hx : Orbit m.net.vector m.topology.keys x)
    (h2 : ∀ t, ∀ k ∈ m.topology.keys, (x t k =? lit 2) = false) (h : FCM.runInference true m = (.ok (), m')) :
    ∃ l : Nat, (l : Int) ≤ m.maxIter ∧ StopsAt (Level m.topology.keys x m.stabilityDiff) m.extraSteps l ∧
      ∀ k ∈ m.topology.keys, m'.traj k = (List.range (if (l : Int) < m.maxIter then l else l - 1)).map (x · k) := by
  have hlk : m.topology.keys.length = m.topology.length := by simp [Dict.keys]
  obtain ⟨c, ys, k, hp, hc, hs, hle, hkl, htr, hno⟩ := vec_recorded (Exact.two (α := α)) hm hco hd hne h
  have ho := orbit_cols hm hf hp h0 hx hc.pos
  have e : ys = (List.range ys.length).map fun t => m.topology.keys.map (x t) := by
    apply List.ext_getElem (by simp)
    intro i h1 h2
    exact hc.get_unique ho i h1 h2
  refine ⟨ys.length, hle, ?_, ?_⟩
  · rw [e] at hs
    simpa using stops_level.1 (by simpa using hs)
  · intro d hd
    have hi := List.idxOf_lt_length_iff.2 hd
    have hk : k = if (ys.length : Int) < m.maxIter then ys.length else ys.length - 1 := by
      refine hno fun y hy => ?_
      rw [e] at hy
      obtain ⟨t, -, rfl⟩ := List.mem_map.1 hy
      have : 0 < m.topology.keys.length := by omega
      rw [List.getD_eq_getElem?_getD, List.getElem?_map, List.getElem?_eq_getElem this]
      exact h2 t _ (List.getElem_mem this)
    have := htr _ hi
    rw [keys_getElem_idxOf hd] at this
    rw [this, ← hk, e, List.map_map, ← List.map_take, List.take_range, Nat.min_eq_left (by simpa using hkl)]
    refine List.map_congr_left fun t _ => ?_
    dsimp only [Function.comp]
    rw [List.getD_eq_getElem?_getD, List.getElem?_map, List.getElem?_eq_getElem hi, keys_getElem_idxOf hd]
    rfl

/-- When the vectorised engine returns, whatever the decision function. -/
theorem vec_returns_iff {m : FCM α} (hm : CleanInv m) (hco : Coherent m) (hd : m.debug = false) (hne : m.topology ≠ [])
    (hf : KwArgs m)
    {x : Nat → String → α} (h0 : ∀ k ∈ m.topology.keys, x 0 k = at' m.traj 0 k) (hx : Orbit m.net.vector m.topology.keys x)
    (h2 : ∀ t, ∀ k ∈ m.topology.keys, (x t k =? lit 2) = false) :
    (FCM.runInference true m).1 = .ok () ↔
      ∃ l : Nat, (l : Int) ≤ m.maxIter ∧ StopsAt (Level m.topology.keys x m.stabilityDiff) m.extraSteps l ∧
        (m.decisionName = "EXITED" → (if (l : Int) < m.maxIter then l else l - 1) ≠ m.extraSteps + 1) := by
  have hlk : m.topology.keys.length = m.topology.length := by simp [Dict.keys]
  constructor
  · intro hok
    obtain ⟨m', h⟩ : ∃ m', FCM.runInference true m = (.ok (), m') := ⟨_, by rw [← hok]⟩
    obtain ⟨l, a, b, htr⟩ := vec_records hm hco hd hne hf h0 hx h2 h
    refine ⟨l, a, b, fun he => ?_⟩
    obtain ⟨d, hd⟩ : ∃ d, d ∈ m.topology.keys := by
      cases hk : m.topology.keys with
      | nil => rw [hk] at hlk; exact absurd (List.length_eq_zero_iff.1 hlk.symm) hne
      | cons d ds => exact ⟨d, by simp⟩
    obtain ⟨v, -, hv⟩ := final_value_of hm.inv h hd
    have hlen : (m'.traj d).length = if (l : Int) < m.maxIter then l else l - 1 := by simp [htr d hd]
    have hxne : m'.traj d ≠ [] := fun e => by
      have h1 := b.above
      have h2 := hm.inv.extra
      rw [e, List.length_nil] at hlen
      split at hlen <;> omega
    rw [← hlen]
    exact (decideBy_defined hm.inv.dec hxne).1 ⟨v, hv⟩ he
  · rintro ⟨l, hle, hst, hexit⟩
    have hab := hst.above
    have hpos : 0 < l := by omega
    have hM : 0 < m.maxIter := by omega
    obtain ⟨c, hp⟩ := prepare_total hm
    have ho := orbit_cols hm hf hp h0 hx hpos
    have hrun := C12_inside_partial (d := m.stabilityDiff) (extra := m.extraSteps) hM hm.inv.extra ho
      (by simp; omega) (by simpa using stops_level.2 hst)
    set ys := (List.range l).map fun t => m.topology.keys.map (x t) with hys
    have hyl : ys.length = l := by simp [hys]
    obtain ⟨m1, h1⟩ := resetAll_live m.topology.keys m hm.exe
    have h1 : FCM.resetExecution m = (.ok (), m1) := h1
    obtain ⟨e1, kt1, ke1, hk, hall⟩ := reset_spec hm.inv h1
    have hm1 : Inv m1 := by have := reset_pres m hm.inv; rwa [h1] at this
    have hst1 := reset_still m
    rw [h1] at hst1
    have hlen : m1.topology.length = m.topology.length := by
      have := congrArg List.length kt1
      simpa [Dict.keys] using this
    have hstart : m1.topology.map (fun p => p.2.value) = m.start := by
      apply List.ext_getElem
      · simp [FCM.start, Dict.keys, hlen]
      · intro i g1 g2
        have g1' : i < m1.topology.length := by simpa using g1
        simp only [List.getElem_map, FCM.start]
        have hg := get?_getElem hm1.tnd i g1'
        have hi : i < m.topology.keys.length := by simpa [FCM.start] using g2
        obtain ⟨n, v, rest, a, b, d, e⟩ := hall (m.topology.keys[i]) (List.getElem_mem hi)
        have hkk : m1.topology.keys[i]'(by simpa [Dict.keys] using g1') = m.topology.keys[i] := by simp only [kt1]
        rw [hkk, d] at hg
        rw [← Option.some.inj hg]
        simp [setVal, at', FCM.traj, b]
    have hsl : m.start.length = m.topology.length := by simp [FCM.start, Dict.keys]
    have hsne : m.start ≠ [] := by
      intro e
      rw [e] at hsl
      exact hne (List.length_eq_zero_iff.1 hsl.symm)
    have hextra : m1.extraSteps = m.extraSteps := by rw [e1]
    have hmax : m1.maxIter = m.maxIter := by rw [e1]
    have hdiff : m1.stabilityDiff = m.stabilityDiff := by rw [e1]
    have hprep : m1.prepare = .ok c := (prepare_view hst1.view).trans hp
    rw [← hextra, ← hmax, ← hdiff] at hrun
    obtain ⟨m2, hm2, hx2, hd2, hf2, he2, ht2⟩ : ∃ m2, FCM.vectorizedInference m1 = (.ok (), m2) ∧
        m2.execution = m1.stored (rowsOf ys m.start.length m1.maxIter.toNat) ∧ m2.decisionName = m.decisionName ∧
        m2.decisionFn = m.decisionFn ∧ m2.extraSteps = m.extraSteps ∧ m2.topology = m1.topology := by
      have hset : m1.decisionName = m.decisionName ∧ m1.decisionFn = m.decisionFn := by rw [e1]; exact ⟨rfl, rfl⟩
      by_cases hpr : m1.prepared = true
      · have hcoh := hco.still hst1 hpr
        rcases hcoh with ht | ⟨hl, hpc | ⟨⟨e, hpc⟩, -⟩⟩
        · rw [ht] at hlen
          exact absurd (List.length_eq_zero_iff.1 hlen.symm) hne
        · rw [hprep] at hpc
          have hcc : m1.cache = c := (Except.ok.inj hpc).symm
          rw [← hcc] at hrun
          refine ⟨_, vectorized_prepared hpr (sv := m.start) ?_ hsne hrun, rfl, hset.1, hset.2, hextra, rfl⟩
          rw [hstart, List.drop_eq_nil_of_le (Nat.le_of_eq hl), List.append_nil]
        · rw [hprep] at hpc
          cases hpc
      · unfold FCM.vectorizedInference
        dsimp only
        rw [if_neg hpr, hprep, hstart]
        dsimp only
        unfold FCM.vectorRunStore
        dsimp only
        split
        · exact absurd (by assumption) hsne
        · rw [hrun]
          exact ⟨_, rfl, rfl, hset.1, hset.2, hextra, rfl⟩
    obtain ⟨m3, h3⟩ := decideAll_success (m := m2) (by
      intro d hd
      rw [ht2, kt1] at hd
      have hi := List.idxOf_lt_length_iff.2 hd
      have hst' := storeRows_get (k := colIndex ((rowsOf ys m.start.length m1.maxIter.toNat).headD []) m1.maxIter.toNat)
        (cs := m1.topology.keys) (rs := rowsOf ys m.start.length m1.maxIter.toNat)
        (d := m1.execution) hm1.tnd (by simp [rowsOf, hsl, hlen, Dict.keys])
      have hi1 : m.topology.keys.idxOf d < m1.topology.keys.length := by rw [kt1]; exact hi
      have hg := hst'.2.1 _ hi1 (by simp [rowsOf, hsl]; omega)
      have hkk : m1.topology.keys[m.topology.keys.idxOf d] = d := by simp only [kt1]; exact keys_getElem_idxOf hd
      rw [hkk] at hg
      have hcol := (colIndex_rowsOf (ys := ys) (n := m.start.length) (M := m1.maxIter.toNat) (by omega) (by rw [hyl]; omega)
        (Exact.two (α := α)) rfl).2 (by
          intro y hy
          obtain ⟨t, -, rfl⟩ := List.mem_map.1 hy
          have : 0 < m.topology.keys.length := by omega
          rw [List.getD_eq_getElem?_getD, List.getElem?_map, List.getElem?_eq_getElem this]
          exact h2 t _ (List.getElem_mem this))
      have hxne : ((rowsOf ys m.start.length m1.maxIter.toNat)[m.topology.keys.idxOf d]'(by simp [rowsOf, hsl]; omega)).take
          (colIndex ((rowsOf ys m.start.length m1.maxIter.toNat).headD []) m1.maxIter.toNat) ≠ [] := by
        have hex := hm.inv.extra
        intro e
        have := congrArg List.length e
        rw [hcol] at this
        simp only [rowsOf, List.length_take, List.getElem_map, List.length_append, List.length_map, List.length_replicate,
          List.length_nil] at this
        split at this <;> omega
      obtain ⟨v, hv⟩ := (decideBy_defined hm.inv.dec hxne (extra := m2.extraSteps)).2 fun he => by
        have := hexit he
        rw [hcol, he2]
        simp only [rowsOf, List.length_take, List.getElem_map, List.length_append, List.length_map, List.length_replicate]
        split at this <;> split <;> omega
      refine ⟨_, v, by rw [hx2]; exact hg, ?_⟩
      rw [hf2]
      exact (decFn_eq hm.inv.dec _ _ _).2 hv)
    unfold FCM.runInference
    simp only [if_true]
    rw [h1]
    dsimp only
    unfold FCM.engine
    rw [if_neg (by rw [e1]; simp [hd]), hm2]
    dsimp only
    rw [h3]

open Classical in
/-- When the vectorised engine returns. -/
theorem vec_returns {m : FCM α} (hm : CleanInv m) (hco : Coherent m) (hd : m.debug = false) (hne : m.topology ≠ [])
    (hf : KwArgs m) (hdec : m.decisionName ≠ "EXITED")
    {x : Nat → String → α} (h0 : ∀ k ∈ m.topology.keys, x 0 k = at' m.traj 0 k) (hx : Orbit m.net.vector m.topology.keys x)
    (h2 : ∀ t, ∀ k ∈ m.topology.keys, (x t k =? lit 2) = false) :
    (FCM.runInference true m).1 = .ok () ↔
      ∃ l : Nat, (l : Int) ≤ m.maxIter ∧ m.extraSteps < l ∧
        ∀ s, l - m.extraSteps ≤ s → s < l → Level m.topology.keys x m.stabilityDiff s := by
  rw [vec_returns_iff hm hco hd hne hf h0 hx h2]
  refine ⟨fun ⟨l, a, b, _⟩ => ⟨l, a, b.above, b.window⟩, fun hex => ?_⟩
  obtain ⟨l, ⟨hle, hab, hwin⟩, hmin⟩ := Nat.findX hex
  refine ⟨l, hle, ⟨hab, hwin, fun k a b => ?_⟩, fun e => absurd e hdec⟩
  by_contra hcon
  push Not at hcon
  exact hmin k b ⟨by omega, a, hcon⟩

end Runs

/-! ### Real arithmetic -/

open Classical in
/-- If every state has a next one, there is an endless run from every state. -/
theorem orbit_exists {N : Net ℝ} {cs : List String} (h : ∀ A, ∀ c ∈ cs, ∃ v, next N A c = some (.ok v)) (A : String → ℝ) :
    ∃ x, x 0 = A ∧ Orbit N cs x := by
  let f : (String → ℝ) → String → ℝ := fun B c => if hv : ∃ v, next N B c = some (.ok v) then hv.choose else 0
  refine ⟨fun t => f^[t] A, rfl, fun t c hc => ?_⟩
  have hv := h (f^[t] A) c hc
  dsimp only
  rw [Function.iterate_succ_apply']
  show _ = some (Except.ok (if hv : ∃ v, next N (f^[t] A) c = some (.ok v) then hv.choose else 0))
  rw [dif_pos hv]
  exact hv.choose_spec

theorem next_vector_real {m : FCM ℝ} (hm : CleanInv m) (hf : ∀ c n f, m.topology.get? c = some n → n.fn = some f →
      ProperArgs f ∧ TameArgs f) (A : String → ℝ) {c : String} (hc : c ∈ m.topology.keys) :
    ∃ v, next m.net.vector A c = some (.ok v) ∧ -1 ≤ v ∧ v ≤ 1 := by
  obtain ⟨n, hn⟩ := Dict.exists_get?_of_mem hc
  have hg := (hm.good c n hn).full
  obtain ⟨f, e1⟩ := Option.isSome_iff_exists.1 hg.fn
  obtain ⟨um, e2⟩ := Option.isSome_iff_exists.1 hg.useMem
  obtain ⟨ex, e3⟩ := Option.isSome_iff_exists.1 hg.exec
  obtain ⟨p1, p2⟩ := hf c n f hn e1
  have hcon : m.net.vector.concept c = some (specOf n f um ex).vector := by
    show ((m.topology.get? c).bind _).map _ = _
    rw [hn]
    show n.toSpec.map _ = _
    unfold Node.toSpec
    rw [e1, e2, e3]
    rfl
  have hact : ∀ y, ∃ v, (specOf n f um ex).vector.act y = .ok v ∧ -1 ≤ v ∧ v ≤ 1 := by
    intro y
    obtain ⟨v, hv⟩ := callActv_total p1 y
    exact ⟨v, hv, callActv_range p2 hv⟩
  unfold next
  rw [hcon]
  simp only [Option.map_some, Option.some.injEq]
  cases hdv : (specOf n f um ex).vector.divisor with
  | none => exact hact _
  | some d =>
    have hd0 : (lit 0 <? d) = true := (Option.filter_eq_some_iff.1 hdv).2
    have : d ≠ 0 := by
      have : (0 : ℝ) < d := by simpa using hd0
      exact this.ne'
    dsimp only
    rw [if_neg (by simpa using this)]
    exact hact _

theorem ProperArgs.kw {f : FnInfo ℝ} (h : ProperArgs f) : KwOk f.fn f.args := by
  unfold ProperArgs at h
  unfold KwOk
  cases hf : f.fn <;> rw [hf] at h <;> simp only at h ⊢
  case relm => exact h.imp id fun ⟨l, _, e⟩ => ⟨l, e⟩
  case fuzzy =>
    obtain ⟨mb, vl, e | e, hl, -⟩ := h <;> exact ⟨mb, vl, by rw [e]; rfl, hl⟩
  all_goals exact h

/-- Over the reals every start in [-1,1] has an endless run, within [-1,1]. -/
theorem vec_orbit {m : FCM ℝ} (hm : CleanInv m)
    (hn : ∀ c n f, m.topology.get? c = some n → n.fn = some f → ProperArgs f ∧ TameArgs f)
    (h0 : ∀ c ∈ m.topology.keys, -1 ≤ at' m.traj 0 c ∧ at' m.traj 0 c ≤ 1) :
    ∃ x, (∀ k ∈ m.topology.keys, x 0 k = at' m.traj 0 k) ∧ Orbit m.net.vector m.topology.keys x ∧
      ∀ t, ∀ k ∈ m.topology.keys, -1 ≤ x t k ∧ x t k ≤ 1 := by
  have hnx := next_vector_real hm hn
  obtain ⟨x, e0, hx⟩ := orbit_exists (N := m.net.vector) (cs := m.topology.keys)
    (fun A c hc => by obtain ⟨v, hv, -⟩ := hnx A hc; exact ⟨v, hv⟩) (at' m.traj 0)
  refine ⟨x, fun k _ => by rw [e0], hx, ?_⟩
  intro t k hk
  cases t with
  | zero => rw [e0]; exact h0 k hk
  | succ t =>
    obtain ⟨v, hv, hv'⟩ := hnx (x t) hk
    rw [hx t k hk] at hv
    cases hv
    exact hv'

theorem not_two {m : FCM ℝ} {x : Nat → String → ℝ} (h : ∀ t, ∀ k ∈ m.topology.keys, -1 ≤ x t k ∧ x t k ≤ 1) :
    ∀ t, ∀ k ∈ m.topology.keys, (x t k =? lit 2) = false := fun t k hk => by
  have := (h t k hk).2
  have : x t k ≠ 2 := by linarith
  simpa using this

theorem level_real {cs : List String} {x : Nat → String → ℝ} {d : ℝ} {s : Nat} :
    Level cs x d s ↔ |(cs.map (x s)).sum - (cs.map (x (s - 1))).sum| < d := by
  unfold Level
  rw [real_lt]
  have e : ∀ l : List ℝ, total l = l.sum := fun l => pysum_real l
  rw [e, e]
  rfl

end PyFCM
