import Verif.Lemmas.Live
import Verif.Lemmas.Congr
/-
The iterative engine returns exactly when the recurrence has a run of the right length.
-/
namespace PyFCM
open Arith Spec

set_option linter.unusedSectionVars false

variable {α : Type} [Arith α]

/-- Nothing a step reads is missing. -/
structure Whole (m : FCM α) : Prop where
  keys : SameKeys m
  ends : ∀ a ∈ m.arcList, a.origin ∈ m.topology.keys ∧ a.dest ∈ m.topology.keys
  exec : ∀ c n, m.topology.get? c = some n → ∃ ex, n.exec = some ex
  spec : ∀ c n, m.topology.get? c = some n → n.toSpec ≠ none

theorem gatherArc_whole {m : FCM α} (h : Whole m) {a : Arc α} (ha : a ∈ m.arcList) :
    ∃ m', gatherArc a m = (.ok (), m') ∧ Whole m' ∧ m'.arcList = m.arcList := by
  obtain ⟨h1, h2⟩ := h.ends a ha
  obtain ⟨o, ho⟩ := Dict.exists_get?_of_mem h1
  obtain ⟨d, hd⟩ := Dict.exists_get?_of_mem h2
  unfold gatherArc
  rw [ho]
  dsimp only
  split
  · obtain ⟨ex, hex⟩ := h.exec _ _ ho
    rw [hex, hd]
    refine ⟨_, rfl, ⟨fun c => ?_, fun b hb => ?_, fun c n hn => ?_, fun c n hn => ?_⟩, rfl⟩
    · dsimp only
      rw [Dict.keys_set_of_mem _ _ _ h2]
      exact h.keys c
    · dsimp only
      rw [Dict.keys_set_of_mem _ _ _ h2]
      exact h.ends b hb
    · rw [Dict.get?_set] at hn
      split at hn
      · cases hn
        obtain ⟨ex', he⟩ := h.exec _ _ hd
        exact ⟨ex', he⟩
      · exact h.exec c n hn
    · rw [Dict.get?_set] at hn
      split at hn
      · cases hn
        have := h.spec _ _ hd
        exact this
      · exact h.spec c n hn
  · exact ⟨_, rfl, h, rfl⟩

theorem gather_whole : ∀ (as : List (Arc α)) (m : FCM α), Whole m → (∀ a ∈ as, a ∈ m.arcList) →
    ∃ m', PyM.forEach as gatherArc m = (.ok (), m')
  | [], m, _, _ => ⟨m, rfl⟩
  | a :: as, m, h, ha => by
    obtain ⟨m1, e1, l1, a1⟩ := gatherArc_whole h (ha a (by simp))
    obtain ⟨m2, e2⟩ := gather_whole as m1 l1 (fun b hb => by rw [a1]; exact ha b (by simp [hb]))
    exact ⟨m2, by simp only [PyM.forEach, e1]; exact e2⟩

theorem stepNode_evals {m : FCM α} {c : String} {n : Node α} {r : α} {xs : List α} (hn : m.topology.get? c = some n)
    (hr : evalNode n = .ok r) (hx : m.execution.get? c = some xs) :
    stepNode c m =
      (.ok (), { m with topology := m.topology.set c (setVal r n), execution := m.execution.set c (xs ++ [r]) }) := by
  unfold evalNode at hr
  unfold stepNode
  rw [hn]
  dsimp only
  cases h1 : n.exec with
  | none => simp only [h1] at hr; cases hr
  | some ex =>
    cases h2 : n.useMem with
    | none => simp only [h1, h2] at hr; cases hr
    | some um =>
      cases h3 : n.fn with
      | none => simp only [h1, h2, h3] at hr; cases hr
      | some f =>
        simp only [h1, h2, h3] at hr
        dsimp only
        split at hr
        · cases hr
        · rename_i v hv
          rw [hv]
          dsimp only
          rw [hr]
          dsimp only
          rw [hx]
          simp only [Dict.set_set]
          unfold setVal
          rw [h1, h2, h3]

theorem stepNodes_evals : ∀ (cs : List String) (m : FCM α), cs.Nodup →
    (∀ c ∈ cs, ∃ n r xs, m.topology.get? c = some n ∧ evalNode n = .ok r ∧ m.execution.get? c = some xs) →
    ∃ m', PyM.forEach cs stepNode m = (.ok (), m')
  | [], m, _, _ => ⟨m, rfl⟩
  | c :: cs, m, hnd, h => by
    rw [List.nodup_cons] at hnd
    obtain ⟨n, r, xs, h1, h2, h3⟩ := h c (by simp)
    obtain ⟨m2, e2⟩ := stepNodes_evals cs
      { m with topology := m.topology.set c (setVal r n), execution := m.execution.set c (xs ++ [r]) } hnd.2 (fun d hd => by
        have hne : c ≠ d := by rintro rfl; exact hnd.1 hd
        obtain ⟨n', r', xs', a, b, e⟩ := h d (by simp [hd])
        exact ⟨n', r', xs', by rw [← a]; exact Dict.get?_set_ne _ _ hne, b, by rw [← e]; exact Dict.get?_set_ne _ _ hne⟩)
    exact ⟨m2, by simp only [PyM.forEach, stepNode_evals h1 h2 h3]; exact e2⟩

/-- One application of the recurrence is one evaluation of the concept. -/
theorem next_evals {m : FCM α} {A : String → α} {c : String} {n : Node α} {r : α} (hm : Inv m)
    (hn : m.topology.get? c = some n) (hv : n.value = A c) (h : next m.net A c = some (.ok r)) :
    evalNode { n with aux := inputs m.net A c } = .ok r := by
  have hok := hm.nodes c n hn
  unfold next at h
  have hcon : m.net.concept c = n.toSpec := by simp [FCM.net, hn]
  rw [hcon] at h
  unfold Node.toSpec at h
  unfold evalNode
  cases h1 : n.exec with
  | none => simp [h1] at h
  | some ex =>
    cases h2 : n.useMem with
    | none => simp [h1, h2] at h
    | some um =>
      cases h3 : n.fn with
      | none => simp [h1, h2, h3] at h
      | some f =>
        simp only [h1, h2, h3, Option.map_some, Option.some.injEq] at h
        dsimp only
        have hrun := execOk_run (hok.exec ex h1) (inputs m.net A c) n.value um
          { active := n.active, rescale := ex.2 == "PAPAGEORGIUS", memory := um,
            divisor := if f.name = "fuzzy" then some n.actvSum else none,
            act := fun x => callActv f.fn x f.args } rfl
        rw [hrun, hv]
        by_cases hfz : f.name = "fuzzy"
        · simp only [hfz, if_true] at h ⊢
          unfold pdiv
          by_cases hz : n.actvSum =? lit 0
          · simp only [hz, if_true] at h; cases h
          · simp only [hz] at h ⊢
            exact h
        · simp only [hfz, if_false] at h ⊢
          exact h

/-- A step succeeds if the recurrence does. -/
theorem stepOnce_next {m0 m : FCM α} (hr : Running m0 m) (hw : Whole m)
    (h : ∀ c ∈ m0.topology.keys, ∃ r, next m0.net (at' m.traj (m.iterations - 1)) c = some (.ok r)) :
    ∃ m', FCM.stepOnce m = (.ok (), m') := by
  obtain ⟨m1, e1⟩ := gather_whole m.arcList m hw (fun _ ha => ha)
  obtain ⟨g1, k1, a1⟩ := gather_spec e1
  have hx : m1.execution = m.execution := by rw [g1]
  obtain ⟨m2, e2⟩ := stepNodes_evals m1.execution.keys m1 (by rw [hx]; exact hr.inv.xnd) (fun c hc => by
    rw [hx] at hc ⊢
    have hct : c ∈ m.topology.keys := (hr.keys c).2 hc
    obtain ⟨n, hn⟩ := Dict.exists_get?_of_mem hct
    obtain ⟨xs, hxs⟩ := Dict.exists_get?_of_mem hc
    obtain ⟨r, hnx⟩ := h c (by rw [← hr.same.keys]; exact hct)
    rw [← net_congr hr.same] at hnx
    have hev := next_evals hr.inv hn (hr.value c n hn) hnx
    rw [← contribs_eq_inputs hr.value hw.spec c] at hev
    refine ⟨_, r, xs, by rw [a1, hn]; rfl, ?_, hxs⟩
    rw [← hev]
    unfold addAux
    rw [hr.aux c n hn, List.nil_append])
  unfold FCM.stepOnce
  rw [e1]
  dsimp only
  rw [e2]
  exact ⟨_, rfl⟩

theorem Whole.same {m m' : FCM α} (h : Whole m) (hs : SameMap m m') : Whole m' := by
  have key : ∀ c n', m'.topology.get? c = some n' → ∃ n, m.topology.get? c = some n ∧ n'.static = n.static := by
    intro c n' hn'
    have := hs.static c
    rw [hn'] at this
    cases hn : m.topology.get? c with
    | none => rw [hn] at this; cases this
    | some n => rw [hn] at this; exact ⟨n, rfl, by simpa using this⟩
  refine ⟨fun c => by rw [hs.keys, hs.ekeys]; exact h.keys c, fun a ha => by rw [hs.arcList] at ha; rw [hs.keys]; exact h.ends a ha,
    fun c n' hn' => ?_, fun c n' hn' => ?_⟩
  · obtain ⟨n, hn, e⟩ := key c n' hn'
    obtain ⟨ex, hex⟩ := h.exec c n hn
    exact ⟨ex, ((congrArg Node.exec e :).trans hex)⟩
  · obtain ⟨n, hn, e⟩ := key c n' hn'
    have := h.spec c n hn
    rw [(Node.static_eq_iff n n').1 e]
    exact this

theorem iterLoop_returns {m0 : FCM α} {w len : Nat} {x : String → List α} (hw : w = m0.extraSteps - 1)
    (run : IsRun m0.net m0.topology.keys x len) (hout : ∀ c, c ∉ m0.topology.keys → x c = [])
    (stop : StopsAt (Quiet x m0.topology.keys m0.maxIter m0.stopAtStabilize m0.stabilityDiff) w len) :
    ∀ (fuel extra : Nat) (m : FCM α), Running m0 m → Whole m → Counting m0 m w extra → m.iterations ≤ len →
      (∀ t, t < m.iterations → at' m.traj t = at' x t) →
      (FCM.iterLoop fuel extra m).1 = .error .diverge ∨ (FCM.iterLoop fuel extra m).1 = .ok ()
  | 0, extra, m, _, _, _, _, _ => by
    unfold FCM.iterLoop
    split
    · exact .inl rfl
    · exact .inr rfl
  | fuel + 1, extra, m, hr, hl, hc, hle, hag => by
    unfold FCM.iterLoop
    split
    · rename_i hpos
      obtain ⟨b, hb, hiff⟩ := keepExecution_running hr
      have hq : ∀ s, 1 ≤ s → s ≤ m.iterations →
          (QuietAt m0 m s ↔ Quiet x m0.topology.keys m0.maxIter m0.stopAtStabilize m0.stabilityDiff s) := by
        intro s h1 h2
        unfold QuietAt Quiet Calm
        rw [hag (s - 1) (by omega), hag (s - 2) (by omega)]
      have hlt : m.iterations < len := by
        apply Nat.lt_of_le_of_ne hle
        intro e
        have h1 := hc.le
        have h2 := hc.cnt
        have h3 := stop.above
        rcases hc.before with hb' | hb'
        · omega
        · by_cases hz : m.iterations - (w - extra) - 1 = 0
          · omega
          · exact hb' ((hq _ (by omega) (by omega)).2 (stop.window _ (by omega) (by omega)))
      have hp := hr.pos
      obtain ⟨m1, e1⟩ := stepOnce_next hr hl (fun c hcm => ⟨at' x m.iterations c, by
        rw [hag _ (by omega)]
        have := (run c hcm).2 (m.iterations - 1) (by omega)
        rwa [show m.iterations - 1 + 1 = m.iterations by omega] at this⟩)
      obtain ⟨hr1, hit, hext⟩ := stepOnce_running hr e1
      rw [hb]
      dsimp only
      rw [e1]
      refine iterLoop_returns hw run hout stop fuel _ m1 hr1 ?_ (hc.step hw hr hpos hiff e1) (by omega) ?_
      · obtain ⟨hsame, -⟩ := stepOnce_spec hr.inv.xnd hr.aux hr.keys e1
        exact hl.same hsame
      · intro t ht
        rw [hit] at ht
        have hagree : ∀ t, t < m.iterations → at' m1.traj t = at' x t := fun t ht => by
          rw [← hag t ht]
          funext c
          exact hext c t ht
        by_cases hlast : t < m.iterations
        · exact hagree t hlast
        · have hte : t = m.iterations := by omega
          subst hte
          funext c
          by_cases hcm : c ∈ m0.topology.keys
          · have h1 := (hr1.run c hcm).2 (m.iterations - 1) (by omega)
            have h2 := (run c hcm).2 (m.iterations - 1) (by omega)
            rw [hagree _ (by omega), show m.iterations - 1 + 1 = m.iterations by omega] at h1
            rw [show m.iterations - 1 + 1 = m.iterations by omega, h1] at h2
            simpa using h2
          · have hcx : c ∉ m1.execution.keys := fun hx => hcm (by rw [← hr1.same.keys]; exact (hr1.keys c).2 hx)
            simp [at', FCM.traj, (Dict.get?_eq_none_iff _ _).2 hcx, hout c hcm]
    · exact .inr rfl

/-- The iterative engine returns if the recurrence has a run that ends where the engine stops and on whose values the
decision function is defined. -/
theorem run_returns {m : FCM α} (hm : CleanInv m) (hd : m.debug = true) {x : String → List α} {len : Nat}
    (start : ∀ c ∈ m.topology.keys, at' x 0 c = at' m.traj 0 c) (run : IsRun m.net m.topology.keys x len)
    (stop : StopsAt (Quiet x m.topology.keys m.maxIter m.stopAtStabilize m.stabilityDiff) (m.extraSteps - 1) len)
    (dec : ∀ c ∈ m.topology.keys, ∃ v, decideBy m.decisionName (x c) m.extraSteps = some v) :
    ∃ m', FCM.runInference true m = (.ok (), m') := by
  -- outside the map the trajectory plays no role
  obtain ⟨y, hy, hout⟩ : ∃ y : String → List α, (∀ c ∈ m.topology.keys, y c = x c) ∧ ∀ c, c ∉ m.topology.keys → y c = [] :=
    ⟨fun c => if c ∈ m.topology.keys then x c else [], fun c hc => if_pos hc, fun c hc => if_neg hc⟩
  have hat : ∀ t, ∀ c ∈ m.topology.keys, at' y t c = at' x t c := fun t c hc => by unfold at'; rw [hy c hc]
  have run : IsRun m.net m.topology.keys y len := fun c hc => by
    refine ⟨by rw [hy c hc]; exact (run c hc).1, fun t ht => ?_⟩
    rw [hat (t + 1) c hc, ← (run c hc).2 t ht]
    refine next_congr (hat t c hc) fun r hr => ?_
    obtain ⟨a, ha, rfl⟩ := List.mem_map.1 hr
    exact hat t _ (hm.inv.ends a ha).1
  have stop : StopsAt (Quiet y m.topology.keys m.maxIter m.stopAtStabilize m.stabilityDiff) (m.extraSteps - 1) len := by
    have hq : Quiet y m.topology.keys m.maxIter m.stopAtStabilize m.stabilityDiff =
        Quiet x m.topology.keys m.maxIter m.stopAtStabilize m.stabilityDiff := by
      funext s
      unfold Quiet Calm
      refine propext (or_congr Iff.rfl (and_congr Iff.rfl (and_congr Iff.rfl (forall₂_congr fun c hc => ?_))))
      rw [hat _ c hc, hat _ c hc]
    rw [hq]; exact stop
  obtain ⟨m1, h1⟩ := resetAll_live m.topology.keys m hm.exe
  have h1 : FCM.resetExecution m = (.ok (), m1) := h1
  obtain ⟨e1, kt1, ke1, hk, hall1⟩ := reset_spec hm.inv h1
  have hm1 : Inv m1 := by have := reset_pres m hm.inv; rwa [h1] at this
  have get1 : ∀ c n, m1.topology.get? c = some n → ∃ n0 v rest, m.topology.get? c = some n0 ∧
      m.execution.get? c = some (v :: rest) ∧ n = setVal v n0 ∧ m1.execution.get? c = some [v] := by
    intro c n hn
    have hc : c ∈ m.topology.keys := by rw [← kt1]; exact Dict.mem_keys_of_get? hn
    obtain ⟨n0, v, rest, a, b, d, f⟩ := hall1 c hc
    rw [hn] at d; cases d
    exact ⟨n0, v, rest, a, b, rfl, f⟩
  have ha1 : AuxEmpty m1 := by
    intro c n hn
    obtain ⟨n0, v, rest, _, _, rfl, _⟩ := get1 c n hn
    rfl
  have hx1 : ∀ c n, m1.topology.get? c = some n → m1.execution.get? c = some [n.value] := by
    intro c n hn
    obtain ⟨n0, v, rest, _, _, rfl, hx⟩ := get1 c n hn
    exact hx
  have hk1 : SameKeys m1 := by intro c; rw [kt1, ke1]; exact hk c
  have hd1 : m1.debug = true := by rw [e1]; exact hd
  have hw1 : Whole m1 := by
    refine ⟨hk1, hm1.ends, fun c n hc => ?_, fun c n hc => ?_⟩
    · obtain ⟨n0, v, rest, hn0, -, rfl, -⟩ := get1 c n hc
      have := (hm.good c n0 hn0).full.exec
      exact Option.isSome_iff_exists.1 this
    · obtain ⟨n0, v, rest, hn0, -, rfl, -⟩ := get1 c n hc
      have hg := (hm.good c n0 hn0).full
      obtain ⟨ex, h2⟩ := Option.isSome_iff_exists.1 hg.exec
      obtain ⟨um, h3⟩ := Option.isSome_iff_exists.1 hg.useMem
      obtain ⟨f, h4⟩ := Option.isSome_iff_exists.1 hg.fn
      show n0.toSpec ≠ none
      unfold Node.toSpec
      rw [h2, h3, h4]
      simp
  have hnet1 := reset_net hm.inv h1
  have htr : ∀ c ∈ m1.topology.keys, (m1.traj c).length = 1 := by
    intro c hc
    obtain ⟨n, hn⟩ := Dict.exists_get?_of_mem hc
    simp [FCM.traj, hx1 c n hn]
  have hr0 : Running { m1 with iterations := 1 } { m1 with iterations := 1 } := by
    refine ⟨SameMap.refl _, hm1.congr rfl rfl rfl rfl rfl rfl rfl rfl, hk1, ha1, Nat.le_refl _, ?_, ?_, fun _ _ => rfl⟩
    · intro c n hn
      have := hx1 c n hn
      simp [at', FCM.traj, this]
    · intro c hc
      exact ⟨htr c hc, fun t ht => by simp at ht⟩
  have hc0 : Counting { m1 with iterations := 1 } { m1 with iterations := 1 } (m1.extraSteps - 1) (m1.extraSteps - 1) := by
    refine ⟨Nat.le_refl _, by simp, ?_, ?_, ?_⟩
    · intro s h1 h2
      simp at h1 h2; omega
    · left; simp
    · intro l h1 h2; simp at h2; omega
  have hloop := iterLoop_returns (m0 := { m1 with iterations := 1 }) (w := m1.extraSteps - 1) (x := y) (len := len) rfl
    (by
      show IsRun m1.net m1.topology.keys y len
      rw [hnet1, kt1]; exact run)
    (fun c hc => hout c (by rw [← kt1]; exact hc))
    (by
      show StopsAt (Quiet y m1.topology.keys m1.maxIter m1.stopAtStabilize m1.stabilityDiff) (m1.extraSteps - 1) len
      rw [kt1, show m1.maxIter = m.maxIter by rw [e1], show m1.stopAtStabilize = m.stopAtStabilize by rw [e1],
        show m1.stabilityDiff = m.stabilityDiff by rw [e1], show m1.extraSteps = m.extraSteps by rw [e1]]
      exact stop)
    (m1.maxIter.toNat + m1.extraSteps) (m1.extraSteps - 1) { m1 with iterations := 1 } hr0
    ⟨hw1.keys, hw1.ends, hw1.exec, hw1.spec⟩ hc0 (by have := stop.above; show 1 ≤ len; omega) (by
      intro t ht
      have ht : t < 1 := ht
      have : t = 0 := by omega
      subst this
      funext c
      show at' m1.traj 0 c = at' y 0 c
      by_cases hc : c ∈ m.topology.keys
      · obtain ⟨n0, v, rest, _, hx, _, hx'⟩ := hall1 c hc
        rw [hat 0 c hc, start c hc]
        simp [at', FCM.traj, hx, hx']
      · rw [show at' y 0 c = lit 0 by simp [at', hout c hc]]
        have hcx : c ∉ m1.execution.keys := fun h => hc (by rw [← kt1]; exact (hk1 c).2 h)
        simp [at', FCM.traj, (Dict.get?_eq_none_iff _ _).2 hcx])
  have hne := run_ne_diverge true m
  have heng : FCM.engine m1 = FCM.iterLoop (m1.maxIter.toNat + m1.extraSteps) (m1.extraSteps - 1) { m1 with iterations := 1 } := by
    unfold FCM.engine
    rw [if_pos hd1]
    rfl
  rw [← heng] at hloop
  obtain ⟨m2, h2⟩ : ∃ m2, FCM.engine m1 = (.ok (), m2) := by
    rcases hloop with h | h
    · exfalso
      apply hne
      unfold FCM.runInference
      simp only [if_true]
      rw [h1]
      dsimp only
      cases he : FCM.engine m1 with
      | mk r s => rw [he] at h; dsimp only at h; subst h; rfl
    · exact ⟨_, by rw [← h]⟩
  have h2' := h2
  unfold FCM.engine at h2'
  rw [if_pos hd1] at h2'
  obtain ⟨hr, hs⟩ := iterative_spec hm1 hk1 ha1 hx1 h2'
  -- the trajectories are those of the recurrence
  have hkeys1 : ({ m1 with iterations := 1 } : FCM α).topology.keys = m.topology.keys := kt1
  have hrun2 : IsRun m.net m.topology.keys m2.traj m2.iterations := by
    have := hr.run
    rwa [hkeys1, show ({ m1 with iterations := 1 } : FCM α).net = m.net from hnet1] at this
  have hout2 : ∀ c, c ∉ m.topology.keys → m2.traj c = y c := by
    intro c hc
    rw [hout c hc]
    have hcx : c ∉ m2.execution.keys := fun h => hc (by rw [← hkeys1, ← hr.same.keys]; exact (hr.keys c).2 h)
    simp [FCM.traj, (Dict.get?_eq_none_iff _ _).2 hcx]
  have h0 : ∀ c ∈ m.topology.keys, at' m2.traj 0 c = at' y 0 c := by
    intro c hc
    obtain ⟨n0, v, rest, _, hx, _, hx'⟩ := hall1 c hc
    rw [hr.init c (by rw [hkeys1]; exact hc), hat 0 c hc, start c hc]
    simp [at', FCM.traj, hx, hx']
  have hagree : ∀ t, t < m2.iterations → t < len → at' m2.traj t = at' y t := by
    intro t ha hb
    refine PyFCM.IsRun.agree hrun2 run ?_ hout2 t ha hb
    funext c
    by_cases hc : c ∈ m.topology.keys
    · exact h0 c hc
    · unfold at'; rw [hout2 c hc]
  have hset : m1.maxIter = m.maxIter ∧ m1.stopAtStabilize = m.stopAtStabilize ∧ m1.stabilityDiff = m.stabilityDiff ∧
      m1.extraSteps = m.extraSteps := by rw [e1]; exact ⟨rfl, rfl, rfl, rfl⟩
  have hq2 : ∀ s, 1 ≤ s → s ≤ m2.iterations → s ≤ len → (QuietAt { m1 with iterations := 1 } m2 s ↔
      Quiet y m.topology.keys m.maxIter m.stopAtStabilize m.stabilityDiff s) := by
    intro s a b b'
    unfold QuietAt Quiet Calm
    rw [hkeys1, hagree (s - 1) (by omega) (by omega), hagree (s - 2) (by omega) (by omega)]
    show (m1.maxIter ≤ _ ∨ m1.stopAtStabilize = true ∧ _ ∧ ∀ c ∈ _, (m1.stabilityDiff <? _) = false) ↔ _
    rw [hset.1, hset.2.1, hset.2.2.1]
  rw [hset.2.2.2] at hs
  have hlen : m2.iterations = len := by
    rcases Nat.lt_trichotomy m2.iterations len with h | h | h
    · obtain ⟨s, a, b, e⟩ := stop.least _ hs.above h
      have := hs.above
      exact absurd ((hq2 s (by omega) (by omega) (by omega)).1 (hs.window s a b)) e
    · exact h
    · obtain ⟨s, a, b, e⟩ := hs.least _ stop.above h
      have := stop.above
      exact absurd ((hq2 s (by omega) (by omega) (by omega)).2 (stop.window s a b)) e
  rw [hlen] at hrun2
  have htr2 := IsRun.unique hrun2 run hout2 h0
  obtain ⟨m3, h3⟩ := decideAll_success (m := m2) (by
    intro c hc
    have hcm : c ∈ m.topology.keys := by rw [← hkeys1, ← hr.same.keys]; exact hc
    obtain ⟨xs, hxs⟩ := Dict.exists_get?_of_mem ((hr.keys c).1 hc)
    have hx : xs = x c := by
      rw [← hy c hcm, ← htr2 c]; simp [FCM.traj, hxs]
    have hdec2 : m2.decisionName = m.decisionName := by rw [hr.same.eq, e1]
    have hex2 : m2.extraSteps = m.extraSteps := by rw [hr.same.eq, e1]
    obtain ⟨v, hv⟩ := dec c hcm
    exact ⟨xs, v, hxs, (decFn_eq hr.inv.dec _ _ _).2 (by rw [hdec2, hex2, hx]; exact hv)⟩)
  refine ⟨m3, ?_⟩
  unfold FCM.runInference
  simp only [if_true]
  rw [h1]
  dsimp only
  rw [h2]
  exact h3

/-- C75, complete: the iterative engine returns exactly when the recurrence has such a run. -/
theorem run_returns_iff {m : FCM α} (hm : CleanInv m) (hd : m.debug = true) :
    (∃ m', FCM.runInference true m = (.ok (), m')) ↔ ∃ (x : String → List α) (len : Nat),
      (∀ c ∈ m.topology.keys, at' x 0 c = at' m.traj 0 c) ∧ IsRun m.net m.topology.keys x len ∧
      StopsAt (Quiet x m.topology.keys m.maxIter m.stopAtStabilize m.stabilityDiff) (m.extraSteps - 1) len ∧
      ∀ c ∈ m.topology.keys, ∃ v, decideBy m.decisionName (x c) m.extraSteps = some v := by
  constructor
  · rintro ⟨m', h⟩
    obtain ⟨len, hi⟩ := run_iter hm.inv hd h
    refine ⟨m'.traj, len, fun c hc => (hi.init c hc).2, hi.run, hi.stops, fun c hc => ?_⟩
    obtain ⟨n', v, -, -, hv⟩ := hi.final c hc
    have hl := (hi.run c hc).1
    exact ⟨v, (decFn_eq hm.inv.dec _ _ _).1 (by rw [hl]; exact hv)⟩
  · rintro ⟨x, len, h1, h2, h3, h4⟩
    exact run_returns hm hd h1 h2 h3 h4

end PyFCM
