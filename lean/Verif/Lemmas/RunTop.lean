import Verif.Lemmas.Run
/-
`run_inference(reset=True)` with the iterative engine, from any reachable map.
-/
namespace PyFCM
open Arith Spec

set_option linter.unusedSectionVars false

variable {α : Type} [Arith α]

theorem runInference_ok {r : Bool} {m m' : FCM α} (h : FCM.runInference r m = (.ok (), m')) :
    ∃ m1 m2, (if r then FCM.resetExecution m else (.ok (), m)) = (.ok (), m1) ∧
      FCM.engine m1 = (.ok (), m2) ∧ FCM.decideAll m2 = (.ok (), m') := by
  unfold FCM.runInference at h
  split at h
  · cases h
  · rename_i m1 h1
    split at h
    · cases h
    · rename_i m2 h2
      exact ⟨m1, m2, h1, h2, h⟩

/-- `m'` is `m` up to values, auxiliary lists, trajectories, counter, and the vectorised engine's private data. -/
structure SameNet (m m' : FCM α) : Prop where
  keys : m'.topology.keys = m.topology.keys
  net : m'.net = m.net

theorem setVal_toSpec (v : α) (n : Node α) : (setVal v n).toSpec = n.toSpec := rfl

theorem reset_net {m m' : FCM α} (hm : Inv m) (h : FCM.resetExecution m = (.ok (), m')) : m'.net = m.net := by
  obtain ⟨e, kt, ke, hk, hall⟩ := reset_spec hm h
  unfold FCM.net
  have ha : m'.arcList = m.arcList := by rw [e]
  rw [ha]
  congr 1
  funext c
  by_cases hc : c ∈ m.topology.keys
  · obtain ⟨n, v, rest, hn, _, hn', _⟩ := hall c hc
    rw [hn, hn']
    rfl
  · rw [(Dict.get?_eq_none_iff _ _).2 hc, (Dict.get?_eq_none_iff _ _).2 (by rw [kt]; exact hc)]

theorem decideAll_net {m m' : FCM α} (hm : Inv m) (h : FCM.decideAll m = (.ok (), m')) : m'.net = m.net := by
  obtain ⟨e, kt, hall⟩ := decideAll_spec hm h
  unfold FCM.net
  have ha : m'.arcList = m.arcList := by rw [e]
  rw [ha]
  congr 1
  funext c
  by_cases hc : c ∈ m.topology.keys
  · obtain ⟨n, hn⟩ := Dict.exists_get?_of_mem hc
    obtain ⟨xs, v, _, _, hn'⟩ := hall c n hn
    rw [hn, hn']
    rfl
  · rw [(Dict.get?_eq_none_iff _ _).2 hc, (Dict.get?_eq_none_iff _ _).2 (by rw [kt]; exact hc)]

/-- Everything a successful `run_inference()` with the iterative engine guarantees. -/
structure IterRun (m m' : FCM α) (len : Nat) : Prop where
  eq : m' = { m with topology := m'.topology, execution := m'.execution, iterations := m'.iterations }
  keys : m'.topology.keys = m.topology.keys
  ekeys : m'.execution.keys = m.execution.keys
  same : SameKeys m
  inv : Inv m'
  net : m'.net = m.net
  iters : m'.iterations = len
  init : ∀ c ∈ m.topology.keys, m.traj c ≠ [] ∧ at' m'.traj 0 c = at' m.traj 0 c
  run : IsRun m.net m.topology.keys m'.traj len
  stops : StopsAt (Quiet m'.traj m.topology.keys m.maxIter m.stopAtStabilize m.stabilityDiff) (m.extraSteps - 1) len
  final : ∀ c ∈ m.topology.keys, ∃ n' v, m'.topology.get? c = some n' ∧ n'.value = v ∧
    m.decisionFn.run (m'.traj c) ((len : Int) - m.extraSteps - 1) = .ok v
  static : ∀ c, (m'.topology.get? c).map Node.static = (m.topology.get? c).map Node.static

theorem run_iter {m m' : FCM α} (hm : Inv m) (hd : m.debug = true) (h : FCM.runInference true m = (.ok (), m')) :
    ∃ len, IterRun m m' len := by
  obtain ⟨m1, m2, h1, h2, h3⟩ := runInference_ok h
  simp only [if_true] at h1
  obtain ⟨e1, kt1, ke1, hk, hall1⟩ := reset_spec hm h1
  have hnet1 := reset_net hm h1
  have hm1 : Inv m1 := by have := reset_pres m hm; rwa [h1] at this
  have hd1 : m1.debug = true := by rw [e1]; exact hd
  unfold FCM.engine at h2
  rw [if_pos hd1] at h2
  have hk1 : SameKeys m1 := by intro c; rw [kt1, ke1]; exact hk c
  have get1 : ∀ c n, m1.topology.get? c = some n → ∃ n0 v rest, m.topology.get? c = some n0 ∧
      m.execution.get? c = some (v :: rest) ∧ n = setVal v n0 ∧ m1.execution.get? c = some [v] := by
    intro c n hn
    have hc : c ∈ m.topology.keys := by rw [← kt1]; exact Dict.mem_keys_of_get? hn
    obtain ⟨n0, v, rest, a, b, d, f⟩ := hall1 c hc
    rw [hn] at d; cases d
    exact ⟨n0, v, rest, a, b, rfl, f⟩
  have ha1 : AuxEmpty m1 := by
    intro c n hn
    obtain ⟨n0, v, rest, _, _, rfl, _⟩ := get1 c n hn
    rfl
  have hx1 : ∀ c n, m1.topology.get? c = some n → m1.execution.get? c = some [n.value] := by
    intro c n hn
    obtain ⟨n0, v, rest, _, _, rfl, hx⟩ := get1 c n hn
    exact hx
  obtain ⟨hr, hs⟩ := iterative_spec hm1 hk1 ha1 hx1 h2
  have hm2 : Inv m2 := hr.inv
  obtain ⟨e3, kt3, hall3⟩ := decideAll_spec hm2 h3
  have hx3 : m'.execution = m2.execution := by rw [e3]
  have htr3 : m'.traj = m2.traj := by funext c; simp [FCM.traj, hx3]
  have e2 := hr.same.eq
  have hkt2 : m2.topology.keys = m1.topology.keys := hr.same.keys
  have hke2 : m2.execution.keys = m1.execution.keys := hr.same.ekeys
  have hsettings : m2.maxIter = m.maxIter ∧ m2.extraSteps = m.extraSteps ∧ m2.stopAtStabilize = m.stopAtStabilize ∧
      m2.stabilityDiff = m.stabilityDiff ∧ m2.decisionFn = m.decisionFn := by
    rw [e2, e1]; exact ⟨rfl, rfl, rfl, rfl, rfl⟩
  have hn1 : ({ m1 with iterations := 1 } : FCM α).net = m.net := hnet1
  have hkeys1 : ({ m1 with iterations := 1 } : FCM α).topology.keys = m.topology.keys := kt1
  have hq : ∀ s, QuietAt { m1 with iterations := 1 } m2 s ↔
      Quiet m'.traj m.topology.keys m.maxIter m.stopAtStabilize m.stabilityDiff s := by
    intro s
    unfold QuietAt
    rw [htr3, hkeys1]
    have : ({ m1 with iterations := 1 } : FCM α).maxIter = m.maxIter := by rw [e1]
    have h2 : ({ m1 with iterations := 1 } : FCM α).stopAtStabilize = m.stopAtStabilize := by rw [e1]
    have h3 : ({ m1 with iterations := 1 } : FCM α).stabilityDiff = m.stabilityDiff := by rw [e1]
    rw [this, h2, h3]
  refine ⟨m2.iterations, ?_, ?_, ?_, hk, ?_, ?_, ?_, ?_, ?_, ?_, ?_, ?_⟩
  · rw [e3, e2, e1]
  · rw [kt3, hkt2, kt1]
  · rw [hx3, hke2, ke1]
  · have := decideAll_pres m2 hm2; rwa [h3] at this
  · rw [decideAll_net hm2 h3, net_congr hr.same, hn1]
  · rw [e3]
  · intro c hc
    obtain ⟨n0, v, rest, _, hx, _, hx'⟩ := hall1 c hc
    refine ⟨by simp [FCM.traj, hx], ?_⟩
    rw [htr3, hr.init c (by rw [hkeys1]; exact hc)]
    simp [at', FCM.traj, hx, hx']
  · rw [htr3, ← hn1, ← hkeys1]; exact hr.run
  · have := hs
    have he : m1.extraSteps = m.extraSteps := by rw [e1]
    rw [he] at this
    refine ⟨this.above, fun s a b => (hq s).1 (this.window s a b), fun l a b => ?_⟩
    obtain ⟨s, c1, c2, c3⟩ := this.least l a b
    exact ⟨s, c1, c2, fun hh => c3 ((hq s).2 hh)⟩
  · intro c hc
    have hc2 : c ∈ m2.topology.keys := by rw [hkt2, kt1]; exact hc
    obtain ⟨n, hn⟩ := Dict.exists_get?_of_mem hc2
    obtain ⟨xs, v, hx, hv, hn'⟩ := hall3 c n hn
    refine ⟨_, v, hn', rfl, ?_⟩
    have : m'.traj c = xs := by rw [htr3]; simp [FCM.traj, hx]
    rw [this]
    have hl : xs.length = m2.iterations := by
      have := (hr.run c (by rw [hkeys1]; exact hc)).1
      simpa [FCM.traj, hx] using this
    rw [hl] at hv
    rw [hsettings.2.1, hsettings.2.2.2.2] at hv
    exact hv
  · intro c
    by_cases hc : c ∈ m.topology.keys
    · have hc2 : c ∈ m2.topology.keys := by rw [hkt2, kt1]; exact hc
      obtain ⟨n, hn⟩ := Dict.exists_get?_of_mem hc2
      obtain ⟨xs, v, hx, hv, hn'⟩ := hall3 c n hn
      obtain ⟨n0, v0, rest, hn0, _, hn1', _⟩ := hall1 c hc
      have := hr.same.static c
      have h1' : ({ m1 with iterations := 1 } : FCM α).topology.get? c = some (setVal v0 n0) := hn1'
      rw [hn, h1'] at this
      rw [hn', hn0]
      rw [Option.map_some, Option.map_some, Option.some.injEq] at this ⊢
      exact this
    · rw [(Dict.get?_eq_none_iff _ _).2 hc,
        (Dict.get?_eq_none_iff _ _).2 (by rw [kt3, hkt2, kt1]; exact hc)]

/-! ### termination -/

theorem kw1_ne_diverge (p : String) (d : α) (args : Args α) : kw1 p d args ≠ .error .diverge := by
  unfold kw1
  split
  · simp
  · split <;> simp
  · simp

theorem pdiv_ne_diverge (a b : α) : pdiv a b ≠ .error .diverge := by
  unfold pdiv; split <;> simp

theorem njIdx_ne_diverge {β : Type} (xs : List β) (i : Nat) : njIdx xs i ≠ .error .diverge := by
  unfold njIdx; split <;> simp

theorem pyIdx_ne_diverge {β : Type} (xs : List β) (i : Nat) : pyIdx xs i ≠ .error .diverge := by
  unfold pyIdx; split <;> simp

theorem pyIdxBack_ne_diverge {β : Type} (xs : List β) (i : Nat) : pyIdxBack xs i ≠ .error .diverge := by
  unfold pyIdxBack; split
  · exact pyIdx_ne_diverge _ _
  · simp

theorem pymin_ne_diverge (xs : List α) : pymin xs ≠ .error .diverge := by
  unfold pymin; split <;> simp
theorem pymax_ne_diverge (xs : List α) : pymax xs ≠ .error .diverge := by
  unfold pymax; split <;> simp

theorem bind_ne_diverge {β γ : Type} {x : Except Err β} {f : β → Except Err γ} (hx : x ≠ .error .diverge)
    (hf : ∀ b, f b ≠ .error .diverge) : (x >>= f) ≠ .error .diverge := by
  cases x with
  | error e => exact fun h => hx (by simpa [bind, Except.bind] using h)
  | ok b => exact hf b

theorem ok_ne_diverge {β : Type} (b : β) : (Except.ok b : Except Err β) ≠ .error .diverge := by simp
theorem pure_ne_diverge {β : Type} (b : β) : (pure b : Except Err β) ≠ .error .diverge := by simp [pure, Except.pure]

theorem fuzzyInterp_ne_diverge (neg : Bool) (v : α) (mb vl : List α) (p n : Nat) :
    fuzzyInterp neg v mb vl p n ≠ .error .diverge := by
  unfold fuzzyInterp
  refine bind_ne_diverge ?_ fun _ => ?_
  · unfold signOf
    split
    · exact ok_ne_diverge _
    · exact pdiv_ne_diverge _ _
  refine bind_ne_diverge (njIdx_ne_diverge _ _) fun _ => bind_ne_diverge (njIdx_ne_diverge _ _) fun _ =>
    bind_ne_diverge (njIdx_ne_diverge _ _) fun _ => bind_ne_diverge (njIdx_ne_diverge _ _) fun _ =>
    bind_ne_diverge (pdiv_ne_diverge _ _) fun _ => bind_ne_diverge (pdiv_ne_diverge _ _) fun _ => ?_
  split <;> exact pure_ne_diverge _

theorem fuzzySet_ne_diverge (v : α) (mb vl : List α) : fuzzySet v mb vl ≠ .error .diverge := by
  unfold fuzzySet
  refine bind_ne_diverge (pymin_ne_diverge _) fun _ => bind_ne_diverge (pymax_ne_diverge _) fun _ =>
    bind_ne_diverge (njIdx_ne_diverge _ _) fun _ => ?_
  have hat : ∀ (b : Bool) (i : Nat), (do let m ← njIdx mb i; return fuzzyAt b m) ≠ (.error .diverge : Except Err α) :=
    fun b i => bind_ne_diverge (njIdx_ne_diverge _ _) fun _ => pure_ne_diverge _
  repeat' split
  all_goals first
    | exact hat _ _
    | exact fuzzyInterp_ne_diverge _ _ _ _ _ _

theorem sigmoid_ne_diverge (v l : α) : sigmoid v l ≠ .error .diverge := pdiv_ne_diverge _ _
theorem sigmoidHip_ne_diverge (v l : α) : sigmoidHip v l ≠ .error .diverge := by
  unfold sigmoidHip; split <;> exact pdiv_ne_diverge _ _
theorem relm_ne_diverge (v l : α) : relm v l ≠ .error .diverge := by
  unfold relm; split
  · exact ok_ne_diverge _
  · refine bind_ne_diverge (pdiv_ne_diverge _ _) fun _ => ?_
    split <;> exact pure_ne_diverge _

theorem callActv_ne_diverge (f : ActFn) (v : α) (args : Args α) : callActv f v args ≠ .error .diverge := by
  unfold callActv
  split
  · split <;> simp
  · split <;> simp
  · split <;> simp
  · exact bind_ne_diverge (kw1_ne_diverge _ _ _) fun _ => sigmoid_ne_diverge _ _
  · exact bind_ne_diverge (kw1_ne_diverge _ _ _) fun _ => sigmoidHip_ne_diverge _ _
  · exact bind_ne_diverge (kw1_ne_diverge _ _ _) fun _ => relm_ne_diverge _ _
  · exact bind_ne_diverge (kw1_ne_diverge _ _ _) fun _ => pure_ne_diverge _
  · exact bind_ne_diverge (kw1_ne_diverge _ _ _) fun _ => pure_ne_diverge _
  · refine bind_ne_diverge ?_ fun _ => fuzzySet_ne_diverge _ _ _
    unfold kwFuzzy
    repeat' split
    all_goals simp

theorem forEach_ne_diverge {σ ι : Type} {f : ι → PyM σ Unit} (hf : ∀ x s, (f x s).1 ≠ .error .diverge)
    (xs : List ι) (s : σ) : (PyM.forEach xs f s).1 ≠ .error .diverge := by
  induction xs generalizing s with
  | nil => simp [PyM.forEach]
  | cons x xs ih =>
    simp only [PyM.forEach]
    have := hf x s
    split <;> rename_i h <;> rw [h] at this
    · exact ih _
    · simpa using this

theorem gatherArc_ne_diverge (a : Arc α) (m : FCM α) : (gatherArc a m).1 ≠ .error .diverge := by
  unfold gatherArc
  repeat' split
  all_goals simp

theorem stepNode_ne_diverge (c : String) (m : FCM α) : (stepNode c m).1 ≠ .error .diverge := by
  unfold stepNode
  split
  · simp
  · split
    · simp
    · split
      · simp
      · dsimp only
        split
        · simp
        · split
          · rename_i e he
            split at he
            · intro hcon
              simp only [Except.error.injEq] at hcon
              subst hcon
              exact pdiv_ne_diverge _ _ he
            · cases he
          · split
            · rename_i e he
              intro hcon
              simp only [Except.error.injEq] at hcon
              subst hcon
              exact callActv_ne_diverge _ _ _ he
            · split <;> simp

theorem stepOnce_ne_diverge (m : FCM α) : (FCM.stepOnce m).1 ≠ .error .diverge := by
  unfold FCM.stepOnce
  have h1 := forEach_ne_diverge (f := gatherArc (α := α)) gatherArc_ne_diverge m.arcList m
  split <;> rename_i h <;> rw [h] at h1
  · simpa using h1
  · rename_i m1
    have h2 := forEach_ne_diverge (f := stepNode (α := α)) stepNode_ne_diverge m1.execution.keys m1
    split <;> rename_i h' <;> rw [h'] at h2
    · simpa using h2
    · simp

theorem stableLoop_ne_diverge (diff : α) (d : Dict (List α)) : stableLoop diff d ≠ .error .diverge := by
  induction d with
  | nil => simp [stableLoop]
  | cons p d ih =>
    obtain ⟨k, xs⟩ := p
    exact bind_ne_diverge (pyIdxBack_ne_diverge _ _) fun _ => bind_ne_diverge (pyIdxBack_ne_diverge _ _) fun _ =>
      bind_ne_diverge ih fun _ => pure_ne_diverge _

theorem keepExecution_ne_diverge (m : FCM α) : m.keepExecution ≠ .error .diverge := by
  unfold FCM.keepExecution
  split
  · simp
  · split
    · split
      · simp
      · rename_i e he
        unfold FCM.isStable at he
        split at he
        · intro h
          cases h
          exact stableLoop_ne_diverge _ _ he
        · cases he
    · simp

/-- The settings the loop reads. -/
def SameSettings (m m' : FCM α) : Prop :=
  m'.maxIter = m.maxIter ∧ m'.extraSteps = m.extraSteps ∧ m'.iterations = m.iterations

theorem stepOnce_settings {m m' : FCM α} (h : FCM.stepOnce m = (.ok (), m')) :
    m'.maxIter = m.maxIter ∧ m'.extraSteps = m.extraSteps ∧ m'.iterations = m.iterations + 1 := by
  unfold FCM.stepOnce at h
  split at h
  · cases h
  · rename_i m1 h1
    split at h
    · cases h
    · rename_i m2 h2
      cases h
      have g1 : SameSettings m m1 := by
        obtain ⟨e, _⟩ := gather_spec h1
        rw [e]; exact ⟨rfl, rfl, rfl⟩
      have g2 : SameSettings m m2 := by
        refine PyM.forEach_ok (SameSettings m) ?_ g1 h2
        intro c _ s s' hs hstep
        obtain ⟨_, _, _, _, _, _, rfl⟩ := stepNode_ok hstep
        exact hs
      obtain ⟨a, b, c⟩ := g2
      exact ⟨a, b, by dsimp only; rw [c]⟩

theorem iterLoop_ne_diverge (fuel extra : Nat) (m : FCM α) (hx : extra ≤ m.extraSteps - 1)
    (hf : (m.maxIter - m.iterations).toNat + (m.extraSteps - 1) ≤ fuel ∨
      (m.maxIter ≤ m.iterations ∧ extra ≤ fuel)) :
    (FCM.iterLoop fuel extra m).1 ≠ .error .diverge := by
  induction fuel generalizing extra m with
  | zero =>
    unfold FCM.iterLoop
    rw [if_neg (by omega)]
    simp
  | succ f ih =>
    unfold FCM.iterLoop
    split
    · rename_i hpos
      have hkd := keepExecution_ne_diverge m
      split
      · rename_i e he
        intro h
        simp only [Except.error.injEq] at h
        exact hkd (by rw [he, h])
      · rename_i keep hkeep
        have hsd := stepOnce_ne_diverge m
        dsimp only
        split
        · rename_i e m1 he
          rw [he] at hsd
          simpa using hsd
        · rename_i m1 h1
          obtain ⟨a, b, c⟩ := stepOnce_settings h1
          have hk : m.maxIter ≤ m.iterations → keep = false := by
            intro hle
            unfold FCM.keepExecution at hkeep
            rw [if_pos (by omega)] at hkeep
            cases hkeep; rfl
          by_cases hle : m.maxIter ≤ m.iterations
          · have := hk hle
            subst this
            refine ih _ _ ?_ ?_
            · rw [b]; simp; omega
            · right
              rw [a, c]
              simp only [Bool.false_eq_true, if_false]
              omega
          · refine ih _ _ ?_ ?_
            · rw [b]; split <;> omega
            · have hx' : (if keep then m.extraSteps - 1 else extra - 1) ≤ m.extraSteps - 1 := by
                split <;> omega
              rw [a, b, c]
              left
              omega
    · simp

theorem resetOne_ne_diverge (c : String) (m : FCM α) : (resetOne c m).1 ≠ .error .diverge := by
  unfold resetOne
  split
  · simp
  · dsimp only; split <;> simp

theorem meanSum_ne_diverge (vals : List α) (n : Nat) : Decision.meanSum vals n ≠ .error .diverge := by
  induction n with
  | zero => simp [Decision.meanSum]
  | succ n ih =>
    exact bind_ne_diverge ih fun _ => bind_ne_diverge (pyIdx_ne_diverge _ _) fun _ => pure_ne_diverge _

theorem decFn_ne_diverge (f : DecFn) (xs : List α) (p : Int) : f.run xs p ≠ .error .diverge := by
  cases f
  · show Decision.last xs p ≠ _
    unfold Decision.last
    split
    · exact pyIdx_ne_diverge _ _
    · exact pyIdxBack_ne_diverge _ _
  · show Decision.mean xs p ≠ _
    unfold Decision.mean
    refine bind_ne_diverge (meanSum_ne_diverge _ _) fun _ => ?_
    repeat' split
    all_goals first
      | exact pure_ne_diverge _
      | simp only [ne_eq, Except.error.injEq]; exact fun h => nomatch h
  · show Decision.exited xs p ≠ _
    unfold Decision.exited
    split <;> exact pymax_ne_diverge _

theorem decideNode_ne_diverge (c : String) (m : FCM α) : (decideNode c m).1 ≠ .error .diverge := by
  unfold decideNode
  split
  · simp
  · split
    · simp
    · split
      · rename_i e he
        intro h
        simp only [Except.error.injEq] at h
        subst h
        exact decFn_ne_diverge _ _ _ he
      · simp

theorem iterative_ne_diverge (m : FCM α) : (FCM.iterativeInference m).1 ≠ .error .diverge := by
  unfold FCM.iterativeInference
  apply iterLoop_ne_diverge
  · exact Nat.le_refl _
  · left; dsimp only; omega

theorem reset_settings {m m' : FCM α} (h : FCM.resetExecution m = (.ok (), m')) : m'.debug = m.debug := by
  refine PyM.forEach_ok (fun x => x.debug = m.debug) ?_ rfl h
  intro c _ s s' hs hstep
  rw [(resetOne_touch c s s' hstep).1.eq]
  exact hs

theorem runInference_ne_diverge (r : Bool) (m : FCM α) (hd : m.debug = true) :
    (FCM.runInference r m).1 ≠ .error .diverge := by
  unfold FCM.runInference
  have h1 : (if r then FCM.resetExecution m else (.ok (), m)).1 ≠ .error .diverge := by
    split
    · exact forEach_ne_diverge resetOne_ne_diverge _ _
    · simp
  split <;> rename_i h <;> rw [h] at h1
  · simpa using h1
  · rename_i m1
    have hd1 : m1.debug = true := by
      cases r
      · cases h; exact hd
      · rw [reset_settings h]; exact hd
    have h2 : (FCM.engine m1).1 ≠ .error .diverge := by
      unfold FCM.engine
      rw [if_pos hd1]
      exact iterative_ne_diverge m1
    split <;> rename_i h' <;> rw [h'] at h2
    · simpa using h2
    · exact forEach_ne_diverge decideNode_ne_diverge _ _

end PyFCM
