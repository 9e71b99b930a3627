import Verif.Lemmas.Clean
import Verif.Lemmas.Repeat
import Verif.Spec.Continue
/-
`run_inference(reset=False)`: no inputs are pending in a map built by calls that returned, and what the iterative engine
does when it goes on from the current values.
-/
namespace PyFCM
open Arith Spec

set_option linter.unusedSectionVars false

variable {α : Type} [Arith α]

/-! ### no pending inputs -/

theorem AuxEmpty.set {m m' : FCM α} (h : AuxEmpty m) {c : String} {n : Node α} (hn : n.aux = [])
    (ht : m'.topology = m.topology.set c n) : AuxEmpty m' := by
  intro d k hk
  rw [ht, Dict.get?_set] at hk
  split at hk
  · cases hk; exact hn
  · exact h d k hk

theorem AuxEmpty.same {m m' : FCM α} (h : AuxEmpty m) (ht : m'.topology = m.topology) : AuxEmpty m' := by
  intro d k hk; rw [ht] at hk; exact h d k hk

theorem reset_aux {m m' : FCM α} (hm : Inv m) (h : FCM.resetExecution m = (.ok (), m')) : AuxEmpty m' :=
  (reset_fresh hm h).aux

theorem decideAll_aux {m m' : FCM α} (hm : Inv m) (ha : AuxEmpty m) (h : FCM.decideAll m = (.ok (), m')) : AuxEmpty m' := by
  obtain ⟨_, kt, hall⟩ := decideAll_spec hm h
  intro c n hn
  have hc : c ∈ m.topology.keys := by rw [← kt]; exact Dict.mem_keys_of_get? hn
  obtain ⟨n0, hn0⟩ := Dict.exists_get?_of_mem hc
  obtain ⟨xs, v, _, _, hn'⟩ := hall c n0 hn0
  rw [hn'] at hn; cases hn
  exact ha c n0 hn0

theorem iterLoop_aux (fuel extra : Nat) (m m' : FCM α) (hm : Inv m) (hk : SameKeys m) (ha : AuxEmpty m)
    (h : FCM.iterLoop fuel extra m = (.ok (), m')) : AuxEmpty m' ∧ Inv m' := by
  induction fuel generalizing extra m with
  | zero =>
    unfold FCM.iterLoop at h
    split at h
    · cases h
    · cases h; exact ⟨ha, hm⟩
  | succ f ih =>
    unfold FCM.iterLoop at h
    split at h
    · split at h
      · cases h
      · dsimp only at h
        split at h
        · cases h
        · rename_i m1 h1
          obtain ⟨hs, _, ha1, _⟩ := stepOnce_spec hm.xnd ha hk h1
          exact ih _ _ (by have := stepOnce_pres m hm; rwa [h1] at this)
            (by intro c; rw [hs.keys, hs.ekeys]; exact hk c) ha1 h
    · cases h; exact ⟨ha, hm⟩

theorem engine_aux {m m' : FCM α} (hm : Inv m) (hk : SameKeys m) (ha : AuxEmpty m)
    (h : FCM.engine m = (.ok (), m')) : AuxEmpty m' := by
  unfold FCM.engine at h
  split at h
  · exact (iterLoop_aux _ _ { m with iterations := 1 } m' (hm.congr rfl rfl rfl rfl rfl rfl rfl rfl) hk ha h).1
  · obtain ⟨cache, sv, result, _, _, _, e2⟩ := vectorized_ok h
    exact ha.same (by rw [e2])

theorem buildNode_aux {d : DefaultConcept α} {a : ConceptArgs α} {n n' : Node α}
    (h : buildNode d a n = (.ok (), n')) : n'.aux = n.aux := by
  obtain ⟨ex, adict, f, custom, vect, -, -, hch, e⟩ := buildNode_ok h
  exact (congrArg Node.aux e :)

theorem updateNode_aux {b : Bool} {fb : FnInfo α} {a : ConceptArgs α} {n n' : Node α}
    (h : updateNode b fb a n = (.ok (), n')) : n'.aux = n.aux := by
  obtain ⟨ex, ty, adict, f, custom, vect, hex, hty, -, hch, e⟩ := updateNode_ok h
  exact (congrArg Node.aux e :)

theorem Op.aux {op : Op α} {m m' : FCM α} (hm : CleanInv m) (h : AuxEmpty m) (hop : op.run m = (.ok (), m')) :
    AuxEmpty m' := by
  cases op
  case addConcept c a =>
    simp only [Op.run, FCM.addConcept] at hop
    split at hop
    · cases hop
    · rename_i hb
      cases hop
      have hb : buildNode m.default a (freshNode (a.isActive.getD m.default.active)) = (.ok (),
          (buildNode m.default a (freshNode (a.isActive.getD m.default.active))).2) := by
        rw [← hb]
      refine h.set ?_ rfl
      have := buildNode_aux hb
      exact this
  case setConceptProperties c a =>
    simp only [Op.run, FCM.setConceptProperties] at hop
    split at hop
    · cases hop
    · rename_i n hn
      obtain ⟨h1, h2⟩ := Prod.mk.inj hop
      subst h2
      have hb : updateNode m.memInfluence m.mapFn a n = (.ok (), (updateNode m.memInfluence m.mapFn a n).2) := by
        rw [← h1]
      exact h.set ((updateNode_aux hb).trans (h c n hn)) rfl
  case setMapActivationFunction f k =>
    simp only [Op.run, FCM.setMapActivationFunction, PyM.run_bind, PyM.run_modify] at hop
    cases hf : Activation.getFunctionByName f with
    | none => simp only [hf] at hop; cases hop
    | some g =>
      simp only [hf, PyM.run_bind, PyM.run_modify, PyM.run_get] at hop
      refine PyM.forEach_ok (fun x : FCM α => AuxEmpty x) ?_ (by exact h) hop
      intro c _ s s' hs hstep
      unfold applyMapFn at hstep
      split at hstep
      · cases hstep
      · rename_i n hn
        split at hstep
        · cases hstep
        · cases hstep; exact hs
        · split at hstep
          · cases hstep
          · cases hstep
            refine AuxEmpty.set hs ?_ rfl
            exact hs c n hn
  case addRelation o d w =>
    by_cases hk : o ∈ m.topology.keys ∧ d ∈ m.topology.keys
    · obtain ⟨k1, k2, k3, -, -, hall⟩ := addRelation_ok hk.1 hk.2 hop
      intro c n' hn'
      have hc : c ∈ m.topology.keys := by rw [← k1]; exact Dict.mem_keys_of_get? hn'
      obtain ⟨n, hn⟩ := Dict.exists_get?_of_mem hc
      obtain ⟨n'', f', v', hn'', e, hcase⟩ := hall c n hn
      rw [hn'] at hn''; cases hn''
      rw [e]
      exact h c n hn
    · have := addRelation_unknown w hk
      have hop' : FCM.addRelation o d w m = (.ok (), m') := hop
      rw [this] at hop'
      cases hop'
      exact h
  case clearAll =>
    simp only [Op.run, FCM.clearAll, PyM.run_bind, PyM.run_modify] at hop
    split at hop
    · cases hop
      exact fun c n hn => (nomatch hn)
    · cases hop
  case setDefaultConceptProperties a =>
    simp only [Op.run, FCM.setDefaultConceptProperties] at hop
    obtain ⟨-, h2⟩ := Prod.mk.inj hop
    rw [← h2]
    exact h
  case setMapDecisionFunction f =>
    simp only [Op.run, FCM.setMapDecisionFunction] at hop
    split at hop
    · cases hop
    · cases hop
      exact h
  case initConcept c v r =>
    simp only [Op.run, FCM.initConcept] at hop
    split at hop
    · split at hop
      · cases hop
      · cases hop; exact h
    · split at hop
      · cases hop
      · split at hop
        · split at hop
          · cases hop
          · split at hop
            · cases hop
            · cases hop
              exact h.set rfl rfl
        · cases hop
          exact h.set rfl rfl
  case resetExecution => exact reset_aux hm.inv hop
  case clearExecution =>
    obtain ⟨m'', h1, _, kt, hall⟩ := clear_spec hm.inv
    have hop' : FCM.clearExecution m = (.ok (), m') := hop
    rw [h1] at hop'
    cases hop'
    intro c n hn
    have hc : c ∈ m.topology.keys := by rw [← kt]; exact Dict.mem_keys_of_get? hn
    obtain ⟨n0, hn0⟩ := Dict.exists_get?_of_mem hc
    rw [(hall c n0 hn0).1] at hn
    cases hn; rfl
  case runInference r =>
    obtain ⟨m1, m2, h1, h2, h3⟩ := runInference_ok hop
    have i1 : Inv m1 ∧ SameKeys m1 ∧ AuxEmpty m1 := by
      cases r with
      | false => cases h1; exact ⟨hm.inv, hm.sameKeys, h⟩
      | true => have := reset_fresh hm.inv h1; exact ⟨this.inv, this.keys, this.aux⟩
    have i2 : Inv m2 := by have := engine_pres m1 i1.1; rwa [h2] at this
    exact decideAll_aux i2 (engine_aux i1.1 i1.2.1 i1.2.2 h2) h3
  all_goals
    cases hop
    exact h

/-- No inputs are pending in a map built by calls that returned. -/
theorem CleanReachable.aux {m : FCM α} (h : CleanReachable m) : AuxEmpty m := by
  induction h with
  | new h =>
    unfold FCM.new at h
    split at h
    · cases h
    · split at h
      · cases h
      · cases h
        intro c n hn
        simp [Dict.get?] at hn
  | step op h hop ih => exact op.aux h.clean ih hop

/-! ### going on without a reset -/

/-- The current value of a concept (fcm.py:32 `NODE_VALUE`; 0 for an unknown one). -/
def FCM.current (m : FCM α) (c : String) : α := ((m.topology.get? c).map Node.value).getD (lit 0)

theorem FCM.current_get {m : FCM α} {c : String} {n : Node α} (h : m.topology.get? c = some n) : m.current c = n.value := by
  simp [FCM.current, h]

/-- What has been recorded since `m0`, after the value the concept had then. -/
def since (m0 m : FCM α) (c : String) : List α := m0.current c :: (m.traj c).drop (m0.traj c).length

/-- State of the iterative engine in the middle of a run started at `m0` without a reset. -/
structure Going (m0 m : FCM α) : Prop where
  same : SameMap m0 m
  inv : Inv m
  keys : SameKeys m
  aux : AuxEmpty m
  pos : 1 ≤ m.iterations
  kept : ∀ c ∈ m0.topology.keys, m0.traj c <+: m.traj c
  value : ∀ c n, m.topology.get? c = some n → n.value = at' (since m0 m) (m.iterations - 1) c
  run : IsRun m0.net m0.topology.keys (since m0 m) m.iterations

theorem Going.record {m0 m : FCM α} (h : Going m0 m) {c : String} (hc : c ∈ m0.topology.keys) :
    m.traj c = m0.traj c ++ (since m0 m c).tail := by
  obtain ⟨r, hr⟩ := h.kept c hc
  unfold since
  rw [← hr]; simp

theorem stepOnce_going {m0 m m' : FCM α} (h0 : Going m0 m) (h : FCM.stepOnce m = (.ok (), m')) :
    Going m0 m' ∧ m'.iterations = m.iterations + 1 ∧
      (∀ c ∈ m0.topology.keys, ∃ r, since m0 m' c = since m0 m c ++ [r]) ∧ ∀ c, c ∉ m0.topology.keys → since m0 m' c = since m0 m c := by
  obtain ⟨hsame, hit, haux, hall⟩ := stepOnce_spec h0.inv.xnd h0.aux h0.keys h
  have hinv : Inv m' := by have := stepOnce_pres m h0.inv; rwa [h] at this
  have hkeys : SameKeys m' := by
    intro c; rw [hsame.keys, hsame.ekeys]; exact h0.keys c
  have htk : m.topology.keys = m0.topology.keys := h0.same.keys
  have hnet : m.net = m0.net := net_congr h0.same
  have htraj : ∀ c ∈ m0.topology.keys, ∃ r, m'.traj c = m.traj c ++ [r] ∧ since m0 m' c = since m0 m c ++ [r] ∧
      next m0.net (at' (since m0 m) (m.iterations - 1)) c = some (.ok r) := by
    intro c hc
    obtain ⟨n, r, xs, hn, hx, hev, _, hx'⟩ := hall c ((h0.keys c).1 (by rw [htk]; exact hc))
    have ht : m'.traj c = m.traj c ++ [r] := by simp [FCM.traj, hx, hx']
    refine ⟨r, ht, ?_, ?_⟩
    · have hle := (h0.kept c hc).length_le
      unfold since
      rw [ht, List.drop_append, show (m0.traj c).length - (m.traj c).length = 0 by omega]
      rfl
    have hcomplete : ∀ d k, m.topology.get? d = some k → k.toSpec ≠ none := by
      intro d k hk
      obtain ⟨n', r', _, hn', _, hev', _⟩ := hall d ((h0.keys d).1 (Dict.mem_keys_of_get? hk))
      rw [hk] at hn'; cases hn'
      have := evalNode_toSpec hev'
      exact this
    have hcon := contribs_eq_inputs (A := at' (since m0 m) (m.iterations - 1)) h0.value hcomplete c
    rw [hcon] at hev
    rw [← hnet]
    exact evalNode_eq_next h0.inv hn (h0.value c n hn) hev
  have hlen : ∀ c ∈ m0.topology.keys, (since m0 m c).length = m.iterations := fun c hc => (h0.run c hc).1
  have hout : ∀ c, c ∉ m0.topology.keys → since m0 m' c = since m0 m c := by
    intro c hc
    have h1 : c ∉ m.execution.keys := fun hx => hc (by rw [← htk]; exact (h0.keys c).2 hx)
    have h2 : c ∉ m'.execution.keys := by rw [hsame.ekeys]; exact h1
    simp [since, FCM.traj, (Dict.get?_eq_none_iff _ _).2 h1, (Dict.get?_eq_none_iff _ _).2 h2]
  have hextf : ∀ t, t < m.iterations → at' (since m0 m') t = at' (since m0 m) t := by
    intro t ht
    funext c
    by_cases hc : c ∈ m0.topology.keys
    · obtain ⟨r, _, hr, _⟩ := htraj c hc
      have := hlen c hc
      simp only [at', hr, List.getD_eq_getElem?_getD]
      rw [List.getElem?_append_left (by omega)]
    · simp only [at', hout c hc]
  have hnew : ∀ c r, c ∈ m0.topology.keys → since m0 m' c = since m0 m c ++ [r] → at' (since m0 m') m.iterations c = r := by
    intro c r hc hr
    have := hlen c hc
    simp only [at', hr, List.getD_eq_getElem?_getD]
    rw [← this, List.getElem?_append_right (Nat.le_refl _)]
    simp
  refine ⟨⟨h0.same.trans hsame, hinv, hkeys, haux, by omega, ?_, ?_, ?_⟩, hit,
    fun c hc => ⟨(htraj c hc).choose, (htraj c hc).choose_spec.2.1⟩, hout⟩
  · intro c hc
    obtain ⟨r, hr, _⟩ := htraj c hc
    rw [hr]
    exact (h0.kept c hc).trans (List.prefix_append _ _)
  · intro c n hn
    have hc : c ∈ m.topology.keys := by rw [← hsame.keys]; exact Dict.mem_keys_of_get? hn
    obtain ⟨n0, r, xs, _, hx, _, ht', hx'⟩ := hall c ((h0.keys c).1 hc)
    rw [hn] at ht'; cases ht'
    rw [hit, Nat.add_sub_cancel]
    obtain ⟨r', hr, hr', _⟩ := htraj c (by rw [← htk]; exact hc)
    have : r' = r := by
      have e : m'.traj c = m.traj c ++ [r] := by simp [FCM.traj, hx, hx']
      rw [e] at hr
      simpa using hr.symm
    subst this
    exact (hnew c r' (by rw [← htk]; exact hc) hr').symm
  · intro c hc
    obtain ⟨r, _, hr, hnx⟩ := htraj c hc
    refine ⟨by rw [hr, List.length_append, hlen c hc, hit]; rfl, ?_⟩
    intro t ht
    rw [hit] at ht
    have hp := h0.pos
    by_cases hlast : t + 1 = m.iterations
    · rw [hextf t (by omega), hlast, hnew c r hc hr]
      rw [show t = m.iterations - 1 by omega]
      exact hnx
    · rw [hextf t (by omega), hextf (t + 1) (by omega)]
      exact (h0.run c hc).2 t (by omega)

/-! ### the stop test -/

/-- The counter of a loop that stops after `w` tired rounds in a row. -/
structure Count (q : Nat → Prop) (it w extra : Nat) : Prop where
  le : extra ≤ w
  cnt : w - extra < it
  window : ∀ s, it - (w - extra) ≤ s → s < it → q s
  before : it - (w - extra) = 1 ∨ ¬ q (it - (w - extra) - 1)
  least : ∀ l, w < l → l < it → ∃ s, l - w ≤ s ∧ s < l ∧ ¬ q s

theorem Count.step {q q' : Nat → Prop} {it w extra : Nat} {b : Bool} (hp : 1 ≤ it) (hc : Count q it w extra)
    (hpos : extra > 0) (hiff : b = true ↔ ¬ q it) (hq : ∀ s, s ≤ it → 1 ≤ s → (q' s ↔ q s)) :
    Count q' (it + 1) w (if b then w else extra - 1) := by
  cases b with
  | true =>
    have hnq : ¬ q it := hiff.1 rfl
    simp only [if_true]
    refine ⟨Nat.le_refl _, by omega, ?_, ?_, ?_⟩
    · intro s h2 h3; omega
    · right
      rw [Nat.sub_self, Nat.sub_zero, Nat.add_sub_cancel, hq _ (Nat.le_refl _) hp]
      exact hnq
    · intro l hl1 hl2
      by_cases hl : l < it
      · obtain ⟨s, a, b', c⟩ := hc.least l hl1 hl
        exact ⟨s, a, b', by rw [hq s (by omega) (by omega)]; exact c⟩
      · have hl' : l = it := by omega
        subst hl'
        rcases hc.before with hb' | hb'
        · have := hc.le; omega
        · have := hc.le; have := hc.cnt
          by_cases hz : l - (w - extra) - 1 = 0
          · omega
          · exact ⟨l - (w - extra) - 1, by omega, by omega, by rw [hq _ (by omega) (by omega)]; exact hb'⟩
  | false =>
    have hqq : q it := Classical.byContradiction fun hn => absurd (hiff.2 hn) (by decide)
    simp only [Bool.false_eq_true, if_false]
    have hle := hc.le
    have hcnt := hc.cnt
    refine ⟨by omega, by omega, ?_, ?_, ?_⟩
    · intro s h2 h3
      by_cases hs : s = it
      · subst hs; rw [hq _ (Nat.le_refl _) hp]; exact hqq
      · rw [hq s (by omega) (by omega)]; exact hc.window s (by omega) (by omega)
    · rcases hc.before with hb' | hb'
      · left; omega
      · by_cases hz : it - (w - extra) = 1
        · left; omega
        · right
          rw [show it + 1 - (w - (extra - 1)) - 1 = it - (w - extra) - 1 by omega, hq _ (by omega) (by omega)]
          exact hb'
    · intro l hl1 hl2
      by_cases hl : l < it
      · obtain ⟨s, a, b', c⟩ := hc.least l hl1 hl
        exact ⟨s, a, b', by rw [hq s (by omega) (by omega)]; exact c⟩
      · have hl' : l = it := by omega
        subst hl'
        rcases hc.before with hb' | hb'
        · omega
        · by_cases hz : l - (w - extra) - 1 = 0
          · omega
          · exact ⟨l - (w - extra) - 1, by omega, by omega, by rw [hq _ (by omega) (by omega)]; exact hb'⟩

theorem Count.stops {q : Nat → Prop} {it w : Nat} (h : Count q it w 0) : StopsAt q w it :=
  ⟨h.cnt, fun s h1 h2 => h.window s h1 h2, h.least⟩

/-- The test of the loop. -/
def TiredAt (m0 m : FCM α) (s : Nat) : Prop :=
  Tired m0.traj (fun c => (since m0 m c).tail) m0.topology.keys m0.maxIter m0.stopAtStabilize m0.stabilityDiff s

theorem keepExecution_going {m0 m : FCM α} (h : Going m0 m) (hne : ∀ c ∈ m0.topology.keys, m0.traj c ≠ []) :
    ∃ b, m.keepExecution = .ok b ∧ (b = true ↔ ¬ TiredAt m0 m m.iterations) := by
  have hnews : ∀ c ∈ m0.topology.keys, m0.traj c ++ ((since m0 m c).tail).take (m.iterations - 1) = m.traj c ∧
      m.iterations ≤ (m.traj c).length := by
    intro c hc
    have hl := (h.run c hc).1
    have e : ((since m0 m c).tail).take (m.iterations - 1) = (since m0 m c).tail :=
      List.take_of_length_le (by simp [hl])
    have hrec := h.record hc
    refine ⟨by rw [e, ← hrec], ?_⟩
    have h1 : 0 < (m0.traj c).length := List.length_pos_iff.2 (hne c hc)
    have h2 := congrArg List.length hrec
    rw [List.length_append, List.length_tail, hl] at h2
    omega
  unfold FCM.keepExecution TiredAt Tired
  rw [h.same.maxIter, h.same.stop]
  by_cases h1 : (m.iterations : Int) ≥ m0.maxIter
  · rw [if_pos h1]
    exact ⟨false, rfl, by simp [h1]⟩
  · rw [if_neg h1]
    have h1' : ¬ m0.maxIter ≤ (m.iterations : Int) := h1
    by_cases h2 : m0.stopAtStabilize = true
    · rw [if_pos h2]
      unfold FCM.isStable
      by_cases h3 : m.iterations > 1
      · rw [if_pos h3]
        have hx : ∀ p ∈ m.execution, p.2 = m.traj p.1 ∧ p.1 ∈ m0.topology.keys := by
          intro p hp
          have := Dict.get?_of_mem h.inv.xnd hp
          refine ⟨by simp [FCM.traj, this], ?_⟩
          rw [← h.same.keys]
          exact h.inv.sub _ (Dict.mem_keys_of_get? this)
        rw [stableLoop_eq (fun p hp => by
          rw [(hx p hp).1]; exact Nat.le_trans h3 (hnews _ (hx p hp).2).2), h.same.diff]
        refine ⟨_, rfl, ?_⟩
        simp only [h2, h1', false_or, true_and, h3, Bool.not_eq_true', ← Bool.not_eq_true]
        refine not_congr ?_
        rw [List.all_eq_true]
        constructor
        · intro hall c hc
          rw [(hnews c hc).1]
          have hc' : c ∈ m.execution.keys := (h.keys c).1 (by rw [h.same.keys]; exact hc)
          obtain ⟨xs, hxs⟩ := Dict.exists_get?_of_mem hc'
          have hmem := Dict.get?_mem hxs
          have := hall _ hmem
          have ht := (hx _ hmem).1
          dsimp only at this ht
          rw [ht] at this
          simpa [lastMove] using this
        · intro hcalm p hp
          have := hcalm p.1 (hx p hp).2
          rw [(hnews _ (hx p hp).2).1, ← (hx p hp).1] at this
          simpa [lastMove] using this
      · rw [if_neg h3]
        exact ⟨true, rfl, by simp [h1', h3]⟩
    · rw [if_neg h2]
      exact ⟨true, rfl, by simp [h1', h2]⟩

theorem iterLoop_going {m0 : FCM α} {w : Nat} (hw : w = m0.extraSteps - 1) (hne : ∀ c ∈ m0.topology.keys, m0.traj c ≠ [])
    (fuel extra : Nat) (m m' : FCM α) (hr : Going m0 m) (hc : Count (TiredAt m0 m) m.iterations w extra)
    (h : FCM.iterLoop fuel extra m = (.ok (), m')) :
    Going m0 m' ∧ Count (TiredAt m0 m') m'.iterations w 0 := by
  induction fuel generalizing extra m with
  | zero =>
    unfold FCM.iterLoop at h
    split at h
    · cases h
    · cases h
      have : extra = 0 := by omega
      subst this
      exact ⟨hr, hc⟩
  | succ f ih =>
    unfold FCM.iterLoop at h
    split at h
    · rename_i hpos
      obtain ⟨b, hb, hiff⟩ := keepExecution_going hr hne
      rw [hb] at h
      dsimp only at h
      split at h
      · cases h
      · rename_i m1 h1
        obtain ⟨hr1, hit, hext, hout⟩ := stepOnce_going hr h1
        have hes : m.extraSteps = m0.extraSteps := hr.same.extraSteps
        refine ih _ _ hr1 ?_ h
        rw [hit, hes, ← hw]
        refine hc.step hr.pos hpos hiff fun s hs _ => ?_
        have e : ∀ c ∈ m0.topology.keys, ((since m0 m1 c).tail).take (s - 1) = ((since m0 m c).tail).take (s - 1) := by
          intro c hc
          obtain ⟨r, hr'⟩ := hext c hc
          have hl := (hr.run c hc).1
          have hp := hr.pos
          rw [hr', List.tail_append_of_ne_nil (by intro hh; rw [hh] at hl; simp at hl; omega),
            List.take_append_of_le_length (by rw [List.length_tail]; omega)]
        unfold TiredAt Tired
        constructor
        · rintro (hh | ⟨a, b', d⟩)
          · exact Or.inl hh
          · exact Or.inr ⟨a, b', fun c hc => by rw [← e c hc]; exact d c hc⟩
        · rintro (hh | ⟨a, b', d⟩)
          · exact Or.inl hh
          · exact Or.inr ⟨a, b', fun c hc => by rw [e c hc]; exact d c hc⟩
    · cases h
      have : extra = 0 := by omega
      subst this
      exact ⟨hr, hc⟩

/-- The iterative engine started without a reset. -/
theorem iterative_going {m m' : FCM α} (hm : Inv m) (hk : SameKeys m) (ha : AuxEmpty m)
    (hne : ∀ c ∈ m.topology.keys, m.traj c ≠ []) (h : FCM.iterativeInference m = (.ok (), m')) :
    Going { m with iterations := 1 } m' ∧
      StopsAt (TiredAt { m with iterations := 1 } m') (m.extraSteps - 1) m'.iterations := by
  unfold FCM.iterativeInference at h
  have hs : ∀ c, since { m with iterations := 1 } { m with iterations := 1 } c = [m.current c] := by
    intro c
    have e : ({ m with iterations := 1 } : FCM α).traj c = m.traj c := rfl
    unfold since
    rw [List.drop_length]; rfl
  have hr0 : Going { m with iterations := 1 } { m with iterations := 1 } := by
    refine ⟨SameMap.refl _, hm.congr rfl rfl rfl rfl rfl rfl rfl rfl, hk, ha, Nat.le_refl _,
      fun c _ => List.prefix_refl _, ?_, ?_⟩
    · intro c n hn
      simp only [at', hs]
      exact (FCM.current_get hn).symm
    · intro c hc
      exact ⟨by rw [hs]; rfl, fun t ht => by simp at ht⟩
  have hc0 : Count (TiredAt { m with iterations := 1 } { m with iterations := 1 }) 1 (m.extraSteps - 1) (m.extraSteps - 1) := by
    refine ⟨Nat.le_refl _, by simp, ?_, ?_, ?_⟩
    · intro s h1 h2
      simp at h1 h2; omega
    · left; simp
    · intro l h1 h2; omega
  obtain ⟨hr, hcn⟩ := iterLoop_going (m0 := { m with iterations := 1 }) (w := m.extraSteps - 1) rfl hne _ _ _ _ hr0 hc0 h
  exact ⟨hr, hcn.stops⟩

end PyFCM
