import Verif.Lemmas.VecRun
import Verif.Lemmas.Clean
import Verif.Lemmas.Args
/-
`run_inference(reset=True)` with the vectorised engine, from any reachable map.
-/
namespace PyFCM
open Arith Spec

set_option linter.unusedSectionVars false

variable {α : Type} [Arith α]

theorem exc_bind_ok {β γ : Type} {x : Except Err β} {f : β → Except Err γ} {c : γ} (h : (x >>= f) = .ok c) :
    ∃ b, x = .ok b ∧ f b = .ok c := by
  cases x with
  | error e => cases h
  | ok b => exact ⟨b, rfl, h⟩

theorem njIdx_eq_ok {β : Type} {xs : List β} {i : Nat} {x : β} : njIdx xs i = .ok x ↔ xs[i]? = some x := by
  unfold njIdx
  cases xs[i]? <;> simp

theorem need_eq_ok {β : Type} {k : String} {o : Option β} {x : β} : need k o = .ok x ↔ o = some x := by
  cases o <;> simp [need]

/-- One entry of the next column. -/
theorem vecNode_ok {c : Cache α} {s : List α} {i : Nat} {v : α} :
    vecNode c s i = .ok v ↔ ∃ si mem r f args x, s[i]? = some si ∧ c.memory[i]? = some mem ∧
      c.normalize[i]? = some r ∧ c.functions[i]? = some f ∧ c.functionArgs[i]? = some args ∧
      normInput r (if mem then dotCol s c.relationMatrix i + si else dotCol s c.relationMatrix i) = .ok x ∧
      execActvFunction f x args = .ok v := by
  constructor
  · intro h
    unfold vecNode at h
    obtain ⟨si, h1, h⟩ := exc_bind_ok h
    obtain ⟨mem, h2, h⟩ := exc_bind_ok h
    obtain ⟨r, h3, h⟩ := exc_bind_ok h
    obtain ⟨f, h4, h⟩ := exc_bind_ok h
    obtain ⟨args, h5, h⟩ := exc_bind_ok h
    obtain ⟨x, h6, h⟩ := exc_bind_ok h
    exact ⟨si, mem, r, f, args, x, njIdx_eq_ok.1 h1, njIdx_eq_ok.1 h2, njIdx_eq_ok.1 h3, njIdx_eq_ok.1 h4,
      njIdx_eq_ok.1 h5, h6, h⟩
  · rintro ⟨si, mem, r, f, args, x, h1, h2, h3, h4, h5, h6, h7⟩
    unfold vecNode
    rw [njIdx_eq_ok.2 h1, njIdx_eq_ok.2 h2, njIdx_eq_ok.2 h3, njIdx_eq_ok.2 h4, njIdx_eq_ok.2 h5]
    simp only [bind, Except.bind, h6, h7]

/-- The prepared entries of concept number `i`. -/
structure RowOf (c : Cache α) (i : Nat) (n : Node α) (f : FnInfo α) (id : Nat) (args : List α) (um : Bool)
    (ex : ExcFn × String) : Prop where
  fn : n.fn = some f
  const : Activation.getConstByName f.name = some id
  vect : n.argsVect = some args
  useMem : n.useMem = some um
  exec : n.exec = some ex
  functions : c.functions[i]? = some id
  functionArgs : c.functionArgs[i]? = some args
  memory : c.memory[i]? = some um
  normalize : c.normalize[i]? = some (if f.name = "fuzzy" then n.actvSum else lit 0)
  avoid : c.avoidSaturation[i]? = some (ex.2 == "PAPAGEORGIUS")

theorem prepRow_ok {n : Node α} {r : Nat × List α × Bool × α × Bool} (h : prepRow n = .ok r) :
    ∃ f id args um ex, n.fn = some f ∧ Activation.getConstByName f.name = some id ∧ n.argsVect = some args ∧
      n.useMem = some um ∧ n.exec = some ex ∧
      r = (id, args, um, if f.name = "fuzzy" then n.actvSum else lit 0, ex.2 == "PAPAGEORGIUS") := by
  unfold prepRow at h
  obtain ⟨f, h1, h⟩ := exc_bind_ok h
  obtain ⟨id, h2, h⟩ := exc_bind_ok h
  obtain ⟨args, h3, h⟩ := exc_bind_ok h
  obtain ⟨um, h4, h⟩ := exc_bind_ok h
  obtain ⟨ex, h5, h⟩ := exc_bind_ok h
  have h2' : Activation.getConstByName f.name = some id := by
    unfold constOf at h2
    cases hg : Activation.getConstByName f.name with
    | none => rw [hg] at h2; cases h2
    | some k => rw [hg] at h2; cases h2; rfl
  refine ⟨f, id, args, um, ex, need_eq_ok.1 h1, h2', need_eq_ok.1 h3, need_eq_ok.1 h4, need_eq_ok.1 h5, ?_⟩
  simpa [pure, Except.pure] using h.symm

theorem prepare_ok {m : FCM α} {c : Cache α} (h : m.prepare = .ok c) :
    (∀ i (hi : i < m.topology.length), ∃ f id args um ex, RowOf c i (m.topology[i]).2 f id args um ex) ∧
    fillMatrix m.topology.keys m.arcList
      (List.replicate m.topology.length (List.replicate m.topology.length (lit 0))) = .ok c.relationMatrix ∧
    c.avoidSaturation.length = m.topology.length := by
  unfold FCM.prepare at h
  obtain ⟨rows, h1, h⟩ := exc_bind_ok h
  obtain ⟨mat, h2, h⟩ := exc_bind_ok h
  simp only [pure, Except.pure, Except.ok.injEq] at h
  subst h
  refine ⟨?_, h2, by simp [mapM_length h1]⟩
  intro i hi
  have hl := mapM_length h1
  have hr := mapM_getElem h1 i hi (by omega)
  obtain ⟨f, id, args, um, ex, a1, a2, a3, a4, a5, a6⟩ := prepRow_ok hr
  have hg : rows[i]? = some rows[i] := List.getElem?_eq_getElem (by omega)
  refine ⟨f, id, args, um, ex, a1, a2, a3, a4, a5, ?_, ?_, ?_, ?_, ?_⟩
  all_goals
    dsimp only
    rw [List.getElem?_map, hg, a6]
    rfl

theorem vecNode_empty (s : List α) (i : Nat) (v : α) : vecNode ⟨[], [], [], [], [], []⟩ s i ≠ .ok v := by
  intro h
  obtain ⟨_, _, _, _, _, _, _, h, _⟩ := vecNode_ok.1 h
  simp at h

/-- The number of columns read back. -/
theorem colIndex_rowsOf {ys : List (List α)} {n M : Nat} (hn : 0 < n) (hl : ys.length ≤ M)
    (h2 : (lit 2 =? (lit 2 : α)) = true) {k : Nat} (hk : k = colIndex ((rowsOf ys n M).headD []) M) :
    k ≤ ys.length ∧
    ((∀ x ∈ ys, (x.getD 0 (lit 0) =? lit 2) = false) → k = if ys.length < M then ys.length else M - 1) := by
  have hrow : (rowsOf ys n M).headD [] =
      ys.map (fun x : List α => x.getD 0 (lit 0)) ++ List.replicate (M - ys.length) (lit 2) := by
    obtain ⟨n', rfl⟩ : ∃ n', n = n' + 1 := ⟨n - 1, by omega⟩
    simp [rowsOf, List.range_succ_eq_map]
  rw [hrow] at hk
  have hfill : ∀ j (h : j < (ys.map (fun x : List α => x.getD 0 (lit 0)) ++
      List.replicate (M - ys.length) (lit 2)).length), ys.length ≤ j →
      (ys.map (fun x : List α => x.getD 0 (lit 0)) ++ List.replicate (M - ys.length) (lit 2))[j] = lit 2 := by
    intro j h hj
    rw [List.getElem_append_right (by simpa using hj)]
    simp
  have hrec : ∀ j (h : j < (ys.map (fun x : List α => x.getD 0 (lit 0)) ++
      List.replicate (M - ys.length) (lit 2)).length) (hj : j < ys.length),
      (ys.map (fun x : List α => x.getD 0 (lit 0)) ++ List.replicate (M - ys.length) (lit 2))[j] =
        (ys[j]).getD 0 (lit 0) := by
    intro j h hj
    rw [List.getElem_append_left (by simpa using hj)]
    simp
  have hlen : (ys.map (fun x : List α => x.getD 0 (lit 0)) ++ List.replicate (M - ys.length) (lit 2)).length = M := by
    simp; omega
  unfold colIndex at hk
  cases hf : (ys.map (fun x : List α => x.getD 0 (lit 0)) ++
      List.replicate (M - ys.length) (lit 2)).findIdx? (fun v => v =? lit 2) with
  | some j =>
    rw [hf] at hk
    subst hk
    rw [List.findIdx?_eq_some_iff_getElem] at hf
    obtain ⟨h, hp, hb⟩ := hf
    have hle : k ≤ ys.length := by
      apply Classical.byContradiction
      intro hgt
      have := hb ys.length (by omega)
      rw [hfill _ (by omega) (Nat.le_refl _), h2] at this
      simp at this
    refine ⟨hle, fun hno => ?_⟩
    have : ¬ k < ys.length := by
      intro hlt
      rw [hrec k h hlt] at hp
      rw [hno _ (List.getElem_mem hlt)] at hp
      cases hp
    rw [hlen] at h
    split <;> omega
  | none =>
    rw [hf] at hk
    rw [List.findIdx?_eq_none_iff] at hf
    have : ys.length = M := by
      apply Classical.byContradiction
      intro hne
      have := hf (lit 2) (by
        rw [List.mem_append]
        right
        rw [List.mem_replicate]
        exact ⟨by omega, rfl⟩)
      rw [h2] at this
      cases this
    subst hk
    refine ⟨by dsimp only; omega, fun _ => ?_⟩
    rw [if_neg (by omega)]

/-- Activations at the start of a run, in the order of the concepts. -/
def FCM.start (m : FCM α) : List α := m.topology.keys.map fun c => at' m.traj 0 c

/-- Everything a successful `run_inference()` with the vectorised engine guarantees; `ys` are the executed columns,
`k` the number of columns read back. -/
structure VecDone (m m' : FCM α) (c : Cache α) (ys : List (List α)) (k : Nat) : Prop where
  prep : m.prepare = .ok c
  cols : Cols c m.start ys
  le : (ys.length : Int) ≤ m.maxIter
  stops : StopsAt (Near m.stabilityDiff ys) m.extraSteps ys.length
  index : k = colIndex ((rowsOf ys m.topology.length m.maxIter.toNat).headD []) m.maxIter.toNat
  traj : ∀ i (h : i < m.topology.keys.length), m'.traj m.topology.keys[i] =
    ((rowsOf ys m.topology.length m.maxIter.toNat).getD i []).take k
  view : m'.view = m.view

theorem run_vec {m m' : FCM α} (hm : Inv m) (hco : Coherent m) (hd : m.debug = false) (hne : m.topology ≠ [])
    (h : FCM.runInference true m = (.ok (), m')) : ∃ c ys k, VecDone m m' c ys k := by
  obtain ⟨m1, m2, h1, h2, h3, hf, ha, hm2⟩ := run_after hm h
  obtain ⟨e1, kt1, ke1, hk, hall⟩ := reset_spec hm h1
  obtain ⟨e3, _, _⟩ := decideAll_spec hm2 h3
  have hst := reset_still m
  rw [h1] at hst
  unfold FCM.engine at h2
  have hd1 : m1.debug = false := by rw [e1]; exact hd
  rw [if_neg (by rw [hd1]; simp)] at h2
  obtain ⟨cache, sv, result, hcase, hsv, hres, e2⟩ := vectorized_ok h2
  have hlen : m1.topology.length = m.topology.length := by
    have := congrArg List.length kt1
    simpa [Dict.keys] using this
  have hstart : m1.topology.map (fun p => p.2.value) = m.start := by
    apply List.ext_getElem
    · simp [FCM.start, Dict.keys, hlen]
    · intro i g1 g2
      have g1' : i < m1.topology.length := by simpa using g1
      simp only [List.getElem_map, FCM.start]
      have hg := get?_getElem hf.inv.tnd i g1'
      have hi : i < m.topology.keys.length := by simpa [FCM.start] using g2
      obtain ⟨n, v, rest, a, b, d, e⟩ := hall (m.topology.keys[i]) (List.getElem_mem hi)
      have hkk : m1.topology.keys[i]'(by simpa [Dict.keys] using g1') = m.topology.keys[i] := by simp only [kt1]
      rw [hkk, d] at hg
      rw [← Option.some.inj hg]
      simp [setVal, at', FCM.traj, b]
  have hcoh := hco.still hst
  have hextra : m1.extraSteps = m.extraSteps := by rw [e1]
  have he : 1 ≤ m1.extraSteps := hf.inv.extra
  have hmax : m1.maxIter = m.maxIter := by rw [e1]
  have hdiff : m1.stabilityDiff = m.stabilityDiff := by rw [e1]
  have hprep : m1.prepare = m.prepare := prepare_view hst.view
  have hpos := vectorizedRun_pos hres
  obtain ⟨ys, hc, hle, hout, hs⟩ := vectorizedRun_cols he hres
  have hkey : sv = m.start ∧ m.prepare = .ok cache := by
    rcases hcase with ⟨hp, hca, hs'⟩ | ⟨hp, hca, hs'⟩
    · rcases hcoh hp with ht | ⟨hl, hpc | ⟨-, hemp⟩⟩
      · rw [ht] at hlen
        exact absurd (List.length_eq_zero_iff.1 hlen.symm) hne
      · refine ⟨?_, by rw [hca, ← hprep, hpc]⟩
        rw [hs', ← hstart, List.drop_eq_nil_of_le (by
          show m1.stateVector.length ≤ m1.topology.length
          exact Nat.le_of_eq hl), List.append_nil]
      · exfalso
        have hab := hs.above
        obtain ⟨x1, hx1⟩ : ∃ x1, ys[1]? = some x1 := ⟨_, List.getElem?_eq_getElem (by omega)⟩
        have hstep := hc.step 0 sv x1 hc.head hx1
        have hsvl : 0 < sv.length := List.length_pos_iff.2 hsv
        have hl' := mapM_length hstep
        have := mapM_getElem hstep 0 (by simpa using hsvl) (by rw [hl']; simpa using hsvl)
        rw [hca, hemp] at this
        exact vecNode_empty _ _ _ this
    · exact ⟨by rw [hs', hstart], by rw [← hprep, hca]⟩
  obtain ⟨rfl, hpc⟩ := hkey
  have hsl : m.start.length = m.topology.length := by simp [FCM.start, Dict.keys]
  refine ⟨cache, ys, _, hpc, hc, ?_, ?_, rfl, ?_, ?_⟩
  · rw [← hmax]; omega
  · rw [← hdiff, ← hextra]; exact hs
  · intro i hi
    have hl1 : m1.topology.keys.length = m1.topology.length := by simp [Dict.keys]
    have hrl : result.length = m.topology.length := by rw [hout]; simp [rowsOf, hsl]
    have hst' := storeRows_get (k := colIndex (result.headD []) m1.maxIter.toNat) (cs := m1.topology.keys) (rs := result)
      (d := m1.execution) hf.inv.tnd (by omega)
    have hi1 : i < m1.topology.keys.length := by rw [kt1]; exact hi
    have hg := hst'.2.1 i hi1 (by omega)
    have hx : m'.execution = m1.stored result := by rw [e3, e2]
    have hkk : m1.topology.keys[i] = m.topology.keys[i] := by simp only [kt1]
    unfold FCM.traj
    rw [hx]
    unfold FCM.stored
    rw [← hkk, hg]
    have : result[i]'(by omega) = result.getD i [] := by
      rw [List.getD_eq_getElem?_getD, List.getElem?_eq_getElem (by omega)]; rfl
    rw [this, hout, hmax, hsl]
    rfl
  · have := run_view true m
    rwa [h] at this

/-- Rows of the matrix, read up to the written columns. -/
theorem row_take {ys : List (List α)} {n M i k : Nat} (hi : i < n) (hk : k ≤ ys.length) :
    ((rowsOf ys n M).getD i []).take k = (ys.map fun x : List α => x.getD i (lit 0)).take k := by
  have : (rowsOf ys n M).getD i [] =
      ys.map (fun x : List α => x.getD i (lit 0)) ++ List.replicate (M - ys.length) (lit 2) := by
    rw [List.getD_eq_getElem?_getD]
    simp [rowsOf, hi]
  rw [this, List.take_append_of_le_length (by simpa using hk)]

theorem VecDone.traj_take {m m' : FCM α} {c : Cache α} {ys : List (List α)} {k : Nat} (h : VecDone m m' c ys k)
    (h2 : (lit 2 =? (lit 2 : α)) = true) (hne : m.topology ≠ []) {i : Nat} (hi : i < m.topology.keys.length) :
    k ≤ ys.length ∧ m'.traj m.topology.keys[i] = (ys.map fun x : List α => x.getD i (lit 0)).take k := by
  have hn : 0 < m.topology.length := List.length_pos_iff.2 hne
  have hle : ys.length ≤ m.maxIter.toNat := by have := h.le; omega
  have hkl := (colIndex_rowsOf hn hle h2 h.index).1
  exact ⟨hkl, by rw [h.traj i hi, row_take (by simpa [Dict.keys] using hi) hkl]⟩

end PyFCM
