import Verif.Lemmas.Continue
import Verif.Lemmas.RunTop
import Verif.Lemmas.VecRuns
import Verif.Props.Decision
import Verif.Props.VecNet
/-
C122: `run_inference(reset=False)` (fcm.py:583-599).
-/
namespace PyFCM
open Arith Spec

set_option linter.unusedSectionVars false

section Iterative
variable {α : Type} [Arith α]

/-- What a run without a reset does: `new` is what it appends to the records, `len` is one more than the number of its steps. -/
structure Continued (m m' : FCM α) (new : String → List α) (len : Nat) : Prop where
  /-- the records are extended -/
  record : ∀ c ∈ m.topology.keys, m'.traj c = m.traj c ++ new c
  /-- by the run of the recurrence that starts at the current values -/
  run : IsRun m.net m.topology.keys (fun c => (m.getConceptValue c).getD (lit 0) :: new c) len
  /-- until `extra_steps - 1` tests in a row gave no reason to go on; they look at the whole records -/
  stops : StopsAt (Tired m.traj new m.topology.keys m.maxIter m.stopAtStabilize m.stabilityDiff) (m.extraSteps - 1) len
  /-- and the final values are decided from the whole records -/
  final : ∀ c ∈ m.topology.keys, ∃ v, m'.getConceptValue c = some v ∧ decideBy m.decisionName (m'.traj c) m.extraSteps = some v

/-- What a run without a reset leaves alone. -/
theorem continue_spec {m m' : FCM α} (hr : CleanInv m) (ha : AuxEmpty m) (hd : m.debug = true)
    (h : FCM.runInference false m = (.ok (), m')) :
    (∃ new len, Continued m m' new len) ∧
      m' = { m with topology := m'.topology, execution := m'.execution, iterations := m'.iterations } ∧
      m'.topology.keys = m.topology.keys ∧ m'.execution.keys = m.execution.keys ∧
      (∀ c, (m'.topology.get? c).map Node.static = (m.topology.get? c).map Node.static) := by
  obtain ⟨m1, m2, h1, h2, h3⟩ := runInference_ok h
  cases h1
  unfold FCM.engine at h2
  rw [if_pos hd] at h2
  have hne : ∀ c ∈ m.topology.keys, m.traj c ≠ [] := by
    intro c hc
    obtain ⟨x, xs, hx⟩ := hr.exe c hc
    simp [FCM.traj, hx]
  obtain ⟨hg, hs⟩ := iterative_going hr.inv hr.sameKeys ha hne h2
  obtain ⟨e3, kt3, hall⟩ := decideAll_spec hg.inv h3
  have hx3 : m'.execution = m2.execution := by rw [e3]
  have htr : m'.traj = m2.traj := by funext c; simp [FCM.traj, hx3]
  have hk2 : m2.topology.keys = m.topology.keys := hg.same.keys
  have e2 := hg.same.eq
  have hset : m2.decisionFn = m.decisionFn ∧ m2.extraSteps = m.extraSteps := by rw [e2]; exact ⟨rfl, rfl⟩
  refine ⟨⟨fun c => (since { m with iterations := 1 } m2 c).tail, m2.iterations, ?_, ?_, hs, ?_⟩, ?_, ?_, ?_, ?_⟩
  · intro c hc
    rw [htr]; exact hg.record hc
  · exact hg.run
  · intro c hc
    obtain ⟨n, hn⟩ := Dict.exists_get?_of_mem (d := m2.topology) (k := c) (by rw [hk2]; exact hc)
    obtain ⟨xs, v, hx, hv, hn'⟩ := hall c n hn
    refine ⟨v, by simp [FCM.getConceptValue, hn'], ?_⟩
    have ht : m'.traj c = xs := by rw [htr]; simp [FCM.traj, hx]
    rw [ht, ← decFn_eq hr.inv.dec]
    rw [hset.1, hset.2] at hv
    exact hv
  · rw [e3, e2]
  · rw [kt3, hk2]
  · rw [hx3]; exact hg.same.ekeys
  · intro c
    refine Eq.trans ?_ (hg.same.static c)
    by_cases hc : c ∈ m2.topology.keys
    · obtain ⟨n, hn⟩ := Dict.exists_get?_of_mem hc
      obtain ⟨xs, v, _, _, hn'⟩ := hall c n hn
      rw [hn, hn']; rfl
    · rw [(Dict.get?_eq_none_iff _ _).2 hc, (Dict.get?_eq_none_iff _ _).2 (by rw [kt3]; exact hc)]

/-- C122: `run_inference(reset=False)` goes on from the current values and extends the records. -/
theorem C122_continue {m m' : FCM α} (hr : CleanReachable m) (hd : m.debug = true)
    (h : FCM.runInference false m = (.ok (), m')) : ∃ new len, Continued m m' new len :=
  (continue_spec hr.clean hr.aux hd h).1

/-- C122: how many steps it takes. -/
theorem C122_steps {m m' : FCM α} {new : String → List α} {len : Nat} (hc : Continued m m' new len) :
    (1 < m.maxIter → 2 ≤ m.extraSteps → m.extraSteps < len) ∧ len ≤ max 1 m.maxIter.toNat + (m.extraSteps - 1) := by
  have hab := hc.stops.above
  constructor
  · intro hm h2
    rcases Nat.lt_or_ge m.extraSteps len with g | g
    · exact g
    · have hq := hc.stops.window 1 (by omega) (by omega)
      rcases hq with hq | ⟨_, hq, _⟩
      · omega
      · omega
  · rcases Nat.lt_or_ge (max 1 m.maxIter.toNat + (m.extraSteps - 1)) len with g | g
    · obtain ⟨s, s1, s2, s3⟩ := hc.stops.least (max 1 m.maxIter.toNat + (m.extraSteps - 1)) (by omega) g
      refine absurd (Or.inl ?_) s3
      omega
    · exact g

/-- C122, LAST: after a run, the record of that run up to its final state, followed by what is appended, is one run of the
recurrence: inference goes on where the first run is taken to have ended, and the states of its extra steps are recorded again. -/
theorem C122_last {m m' m'' : FCM α} (hr : CleanReachable m) (hd : m.debug = true) (hl : m.decisionName = "LAST")
    (h : FCM.runInference true m = (.ok (), m')) (h' : FCM.runInference false m' = (.ok (), m'')) :
    ∃ (new : String → List α) (len p : Nat), Continued m' m'' new len ∧
      IsRun m.net m.topology.keys (fun c => (m'.traj c).take (p + 1) ++ new c) (p + len) ∧
      ∀ c ∈ m.topology.keys, at' m'.traj 0 c = at' m.traj 0 c ∧
        p = if m.extraSteps + 1 < (m'.traj c).length then (m'.traj c).length - m.extraSteps - 1 else (m'.traj c).length - 1 := by
  have hr' : CleanReachable m' := .step (.runInference true) hr h
  obtain ⟨l, hi⟩ := run_iter hr.clean.inv hd h
  have hd' : m'.debug = true := by rw [hi.eq]; exact hd
  obtain ⟨new, len, hc⟩ := C122_continue hr' hd' h'
  have hk : m'.topology.keys = m.topology.keys := hi.keys
  have hlen : ∀ c ∈ m.topology.keys, (m'.traj c).length = l := fun c hc => (hi.run c hc).1
  have hpos : 1 ≤ len := by have := hc.stops.above; omega
  have hlpos : 1 ≤ l := by have := hi.stops.above; omega
  obtain ⟨p, hp⟩ : ∃ p, p = if m.extraSteps + 1 < l then l - m.extraSteps - 1 else l - 1 := ⟨_, rfl⟩
  have hpl : p < l := by rw [hp]; split <;> omega
  have hval : ∀ c ∈ m.topology.keys, (m'.getConceptValue c).getD (lit 0) = at' m'.traj p c := by
    intro c hcm
    obtain ⟨v, e1, e2⟩ := final_value_of hr.clean.inv h hcm
    rw [e1, Option.getD_some]
    rw [hl] at e2
    simp only [decideBy, if_true, decideLast, hlen c hcm] at e2
    unfold at'
    rw [List.getD_eq_getElem?_getD]
    have : (m'.traj c)[p]? = some v := by rw [hp]; split at e2 <;> rename_i g <;> simp only [g, if_true, if_false] <;> exact e2
    rw [this]; rfl
  -- entries of the whole
  have hold : ∀ c ∈ m.topology.keys, ∀ t, t ≤ p → ((m'.traj c).take (p + 1) ++ new c).getD t (lit 0) = at' m'.traj t c := by
    intro c hcm t ht
    have := hlen c hcm
    unfold at'
    rw [List.getD_eq_getElem?_getD, List.getD_eq_getElem?_getD,
      List.getElem?_append_left (by rw [List.length_take]; omega), List.getElem?_take_of_lt (by omega)]
  have hnew : ∀ c ∈ m.topology.keys, ∀ t, ((m'.traj c).take (p + 1) ++ new c).getD (p + t) (lit 0) =
      at' (fun c => (m'.getConceptValue c).getD (lit 0) :: new c) t c := by
    intro c hcm t
    cases t with
    | zero =>
      show ((m'.traj c).take (p + 1) ++ new c).getD p (lit 0) = _
      rw [hold c hcm p (Nat.le_refl p), ← hval c hcm]
      simp [at']
    | succ t =>
      have := hlen c hcm
      unfold at'
      rw [List.getD_eq_getElem?_getD, List.getD_eq_getElem?_getD,
        List.getElem?_append_right (by rw [List.length_take]; omega), List.length_take,
        show p + (t + 1) - min (p + 1) (m'.traj c).length = t by omega]
      simp
  have hnet : m'.net = m.net := hi.net
  have hin : ∀ (A B : String → α), (∀ c ∈ m.topology.keys, A c = B c) → ∀ c ∈ m.topology.keys, next m.net A c = next m.net B c := by
    intro A B hAB c hcm
    have hcl : ∀ r ∈ m.net.rels, r.origin ∈ m.topology.keys := by
      intro r hr'
      simp only [FCM.net, List.mem_map] at hr'
      obtain ⟨a, ha, rfl⟩ := hr'
      exact (hr.clean.inv.ends a ha).1
    have e : inputs m.net A c = inputs m.net B c := by
      unfold inputs
      apply List.filterMap_congr
      intro r hr'
      unfold along
      rw [hAB _ (hcl r hr')]
    unfold next
    rw [e, hAB c hcm]
  refine ⟨new, len, p, hc, ?_, ?_⟩
  · intro c hcm
    have hnl := (hc.run c (by rw [hk]; exact hcm)).1
    refine ⟨?_, ?_⟩
    · have := hlen c hcm
      simp only [List.length_cons] at hnl
      rw [List.length_append, List.length_take]
      omega
    · intro t ht
      rcases Nat.lt_or_ge t p with g | g
      · rw [hin (at' (fun c => (m'.traj c).take (p + 1) ++ new c) t) (at' m'.traj t) (fun d hd => hold d hd t (by omega)) c hcm]
        show next _ _ _ = some (Except.ok (((m'.traj c).take (p + 1) ++ new c).getD (t + 1) (lit 0)))
        rw [hold c hcm (t + 1) (by omega)]
        exact (hi.run c hcm).2 t (by omega)
      · obtain ⟨s, rfl⟩ : ∃ s, t = p + s := ⟨t - p, by omega⟩
        rw [hin (at' (fun c => (m'.traj c).take (p + 1) ++ new c) (p + s)) (at' (fun c => (m'.getConceptValue c).getD (lit 0) :: new c) s) (fun d hd => hnew d hd s) c hcm]
        show next _ _ _ = some (Except.ok (((m'.traj c).take (p + 1) ++ new c).getD (p + (s + 1)) (lit 0)))
        rw [hnew c hcm (s + 1), ← hnet]
        exact (hc.run c (by rw [hk]; exact hcm)).2 s (by omega)
  · intro c hcm
    exact ⟨(hi.init c hcm).2, by rw [hlen c hcm]; exact hp⟩

/-- Any number of runs without a reset that return. -/
inductive GoneOn : FCM α → FCM α → Prop
  | refl (m) : GoneOn m m
  | step {m m' m''} (h : GoneOn m m') (hs : FCM.runInference false m' = (.ok (), m'')) : GoneOn m m''

/-- C122: going on any number of times does not change what `run_inference()` does: it reproduces the first run. -/
theorem C122_again {m m' m'' : FCM α} (hr : CleanReachable m) (hd : m.debug = true)
    (h : FCM.runInference true m = (.ok (), m')) (hg : GoneOn m' m'') : FCM.runInference true m'' = (.ok (), m') := by
  obtain ⟨m1, m2, h1, h2, h3, hf, ha, hm2⟩ := run_after hr.clean.inv h
  have hr' : CleanReachable m' := .step (.runInference true) hr h
  obtain ⟨l, hi⟩ := run_iter hr.clean.inv hd h
  have hd' : m'.debug = true := by rw [hi.eq]; exact hd
  have hd1 : m1.debug = true := by
    have := congrArg FCM.debug ha.eq
    rw [hd'] at this
    exact this.symm
  have he2 := h2
  unfold FCM.engine at he2
  rw [if_pos hd1] at he2
  obtain ⟨hr2, _⟩ := iterative_spec hf.inv hf.keys hf.aux hf.exe he2
  obtain ⟨e3, _, _⟩ := decideAll_spec hm2 h3
  have hs : m'.prepared = m1.prepared ∧ m'.cache = m1.cache ∧ m'.stateVector = m1.stateVector := by
    rw [e3, hr2.same.eq]; exact ⟨rfl, rfl, rfl⟩
  have key : AfterRun m1 m'' ∧ CleanReachable m'' ∧ m''.debug = true ∧
      m''.prepared = m1.prepared ∧ m''.cache = m1.cache ∧ m''.stateVector = m1.stateVector := by
    induction hg with
    | refl => exact ⟨ha, hr', hd', hs⟩
    | @step b c hg hstep ih =>
      obtain ⟨ia, ir, id, ip, ic, iv⟩ := ih
      obtain ⟨⟨new, len, hc⟩, eq, k1, k2, hst⟩ := continue_spec ir.clean ir.aux id hstep
      refine ⟨⟨?_, k1.trans ia.keys, k2.trans ia.ekeys, fun c => (hst c).trans (ia.static c), ?_⟩,
        .step (.runInference false) ir hstep, by rw [eq]; exact id, ?_, ?_, ?_⟩
      · rw [eq, ia.eq]
      · intro d n hn
        obtain ⟨rest, hx⟩ := ia.heads d n hn
        have hdk : d ∈ b.topology.keys := by rw [ia.keys]; exact Dict.mem_keys_of_get? hn
        have hrec := hc.record d hdk
        have e : b.traj d = n.value :: rest := by simp [FCM.traj, hx]
        rw [e] at hrec
        refine ⟨rest ++ new d, ?_⟩
        have hdx : d ∈ c.execution.keys := by rw [k2]; exact Dict.mem_keys_of_get? hx
        obtain ⟨xs, hxs⟩ := Dict.exists_get?_of_mem hdx
        rw [hxs]
        simp only [FCM.traj, hxs, Option.getD_some] at hrec
        rw [hrec]; rfl
      · rw [eq]; exact ip
      · rw [eq]; exact ic
      · rw [eq]; exact iv
  obtain ⟨ka, kr, kd, kp, kc, kv⟩ := key
  have hres := reset_after_run hf ka kr.clean.inv
  have heng : FCM.engine { m1 with iterations := m''.iterations, prepared := m''.prepared, cache := m''.cache, stateVector := m''.stateVector } = (.ok (), m2) := by
    unfold FCM.engine
    rw [if_pos hd1, kp, kc, kv]
    exact he2
  unfold FCM.runInference
  rw [if_pos rfl, hres]
  dsimp only
  rw [heng]
  exact h3

end Iterative

section Vector
variable {α : Type} [Arith α]

/-- The map whose records are its current values. -/
def FCM.rebased (m : FCM α) : FCM α :=
  { m with execution := m.execution.map fun p => (p.1, [(m.getConceptValue p.1).getD (lit 0)]) }

theorem rebased_keys (m : FCM α) : m.rebased.execution.keys = m.execution.keys := by
  simp [FCM.rebased, Dict.keys]

theorem get?_map_key {β : Type} (f : String → β → β) : (d : Dict β) → (c : String) →
    Dict.get? (d.map fun p => (p.1, f p.1 p.2)) c = (d.get? c).map (f c)
  | [], c => rfl
  | (k, v) :: d, c => by
    by_cases h : k = c
    · subst h; simp [Dict.get?]
    · have ih := get?_map_key f d c
      show (if k = c then _ else Dict.get? (d.map fun p => (p.1, f p.1 p.2)) c) = Option.map (f c) (if k = c then _ else Dict.get? d c)
      rw [if_neg h, if_neg h, ih]

theorem rebased_get (m : FCM α) {c : String} {xs : List α} (h : m.execution.get? c = some xs) :
    m.rebased.execution.get? c = some [(m.getConceptValue c).getD (lit 0)] := by
  have := get?_map_key (fun c _ => [(m.getConceptValue c).getD (lit 0)]) m.execution c
  simp only [FCM.rebased]
  rw [this, h]; rfl

theorem rebased_inv {m : FCM α} (hm : Inv m) : Inv m.rebased := by
  refine ⟨hm.tnd, ?_, ?_, hm.ends, hm.nodes, hm.dflt, hm.mapFn, hm.dec, hm.extra⟩
  · rw [rebased_keys]; exact hm.xnd
  · intro c hc; rw [rebased_keys] at hc; exact hm.sub c hc

theorem rebased_started {m : FCM α} (hm : CleanInv m) : Started m.rebased := by
  intro c hc
  obtain ⟨x, xs, hx⟩ := hm.exe c hc
  exact ⟨_, [], rebased_get m hx⟩

theorem rebased_clean {m : FCM α} (hm : CleanInv m) : CleanInv m.rebased :=
  ⟨rebased_inv hm.inv, hm.good, rebased_started hm⟩

/-- A map whose records are its current values is what `reset_execution` would make of it. -/
theorem rebased_reset {m : FCM α} (hm : CleanInv m) (ha : AuxEmpty m) : FCM.resetExecution m.rebased = (.ok (), m.rebased) := by
  obtain ⟨m2, h2⟩ := reset_success (rebased_started hm)
  have hi := rebased_inv hm.inv
  obtain ⟨e2, kt2, ke2, hk, hall⟩ := reset_spec hi h2
  have htop : m2.topology = m.topology := by
    refine Dict.ext_get? _ _ kt2 (by rw [kt2]; exact hm.inv.tnd) fun c => ?_
    by_cases hc : c ∈ m.topology.keys
    · obtain ⟨n, v, rest, hn, hx, hn2, _⟩ := hall c hc
      obtain ⟨y, ys, hy⟩ := hm.exe c hc
      rw [rebased_get m hy] at hx
      have hn' : m.topology.get? c = some n := hn
      rw [hn2, hn']
      have hv : v = n.value := by
        simp [FCM.getConceptValue, hn'] at hx
        exact hx.1.symm
      rw [hv]
      exact setVal_self (ha c n hn')
    · rw [(Dict.get?_eq_none_iff _ _).2 hc, (Dict.get?_eq_none_iff _ _).2 (by rw [kt2]; exact hc)]
  have hexe : m2.execution = m.rebased.execution := by
    refine Dict.ext_get? _ _ ke2 (by rw [ke2]; exact hi.xnd) fun c => ?_
    by_cases hc : c ∈ m.topology.keys
    · obtain ⟨n, v, rest, hn, hx, hn2, hx2⟩ := hall c hc
      obtain ⟨y, ys, hy⟩ := hm.exe c hc
      rw [rebased_get m hy] at hx ⊢
      rw [hx2]
      cases hx; rfl
    · have hc1 : c ∉ m.rebased.execution.keys := fun h => hc (hi.sub c h)
      rw [(Dict.get?_eq_none_iff _ _).2 hc1, (Dict.get?_eq_none_iff _ _).2 (by rw [ke2]; exact hc1)]
  rw [h2, e2, htop, hexe]
  rfl

theorem storeRows_rebased {k : Nat} {cs : List String} {rs : List (List α)} {d d' : Dict (List α)} (hnd : cs.Nodup)
    (hl : cs.length ≤ rs.length) (hk : d'.keys = d.keys) (hdn : d.keys.Nodup) (hs : ∀ c ∈ cs, c ∈ d.keys)
    (hs' : ∀ c ∈ d.keys, c ∈ cs) : storeRows k cs rs d' = storeRows k cs rs d := by
  obtain ⟨a1, a2, a3⟩ := storeRows_get (k := k) (rs := rs) (d := d) hnd hl
  obtain ⟨b1, b2, b3⟩ := storeRows_get (k := k) (rs := rs) (d := d') hnd hl
  have ka := a3 hs
  have kb := b3 (by rw [hk]; exact hs)
  refine Dict.ext_get? _ _ (by rw [ka, kb, hk]) (by rw [kb, hk]; exact hdn) fun c => ?_
  by_cases hc : c ∈ cs
  · obtain ⟨i, hi, rfl⟩ := List.getElem_of_mem hc
    rw [a2 i hi (by omega), b2 i hi (by omega)]
  · have h1 : c ∉ d.keys := fun h => hc (hs' c h)
    rw [a1 c hc, b1 c hc, (Dict.get?_eq_none_iff _ _).2 h1, (Dict.get?_eq_none_iff _ _).2 (by rw [hk]; exact h1)]

theorem vectorRunStore_rebased {m : FCM α} {e : Dict (List α)} (hm : Inv m) (hsk : SameKeys m)
    (hl : m.topology.length ≤ m.stateVector.length) (he : e.keys = m.execution.keys) :
    (FCM.vectorRunStore { m with execution := e }).1 = m.vectorRunStore.1 ∧
      (m.vectorRunStore.1 = .ok () → (FCM.vectorRunStore { m with execution := e }).2 = m.vectorRunStore.2) := by
  unfold FCM.vectorRunStore
  dsimp only
  cases hsv : m.stateVector with
  | nil => exact ⟨rfl, fun h => by cases h⟩
  | cons v vs =>
    cases hv : vectorizedRun m.cache (v :: vs) m.maxIter m.stabilityDiff m.extraSteps with
    | error e => exact ⟨rfl, fun h => by cases h⟩
    | ok result =>
      refine ⟨rfl, fun _ => ?_⟩
      obtain ⟨hrl, _⟩ := vectorizedRun_heads hv
      have hlen : m.topology.keys.length = m.topology.length := by simp [Dict.keys]
      dsimp only
      rw [storeRows_rebased hm.tnd (by rw [hlen, hrl, ← hsv]; exact hl) he hm.xnd (fun c hc => (hsk c).1 hc)
        (fun c hc => (hsk c).2 hc)]

theorem vectorized_rebased {m : FCM α} (hm : Inv m) (hsk : SameKeys m) :
    (FCM.vectorizedInference m.rebased).1 = (FCM.vectorizedInference m).1 ∧
      ((FCM.vectorizedInference m).1 = .ok () → (FCM.vectorizedInference m.rebased).2 = (FCM.vectorizedInference m).2) := by
  unfold FCM.vectorizedInference
  have hp : m.rebased.prepare = m.prepare := rfl
  have ht : m.rebased.topology = m.topology := rfl
  have hpr : m.rebased.prepared = m.prepared := rfl
  have hs : m.rebased.stateVector = m.stateVector := rfl
  dsimp only
  rw [hp, ht, hpr, hs]
  by_cases h : m.prepared = true
  · rw [if_pos h, if_pos h]
    refine vectorRunStore_rebased (m := { m with stateVector := _ }) (e := m.rebased.execution)
      (hm.congr rfl rfl rfl rfl rfl rfl rfl rfl) hsk ?_ (rebased_keys m)
    simp
  · rw [if_neg h, if_neg h]
    cases m.prepare with
    | error e => exact ⟨rfl, fun h => by cases h⟩
    | ok c =>
      refine vectorRunStore_rebased (m := { m with prepared := true, stateVector := _, cache := c }) (e := m.rebased.execution)
        (hm.congr rfl rfl rfl rfl rfl rfl rfl rfl) hsk ?_ (rebased_keys m)
      simp

/-- C122, vectorised engine: the records are not extended but replaced.  `run_inference(reset=False)` returns exactly when
`run_inference()` returns on the map whose records are its current values, and leaves the same map. -/
theorem C122_vector {m : FCM α} (hr : CleanReachable m) (hd : m.debug = false) :
    (FCM.runInference false m).1 = (FCM.runInference true m.rebased).1 ∧
      ∀ m', FCM.runInference false m = (.ok (), m') ↔ FCM.runInference true m.rebased = (.ok (), m') := by
  have hv := vectorized_rebased hr.clean.inv hr.clean.sameKeys
  have e1 : FCM.engine m = FCM.vectorizedInference m := by unfold FCM.engine; rw [if_neg (by rw [hd]; decide)]
  have e2 : FCM.engine m.rebased = FCM.vectorizedInference m.rebased := by
    unfold FCM.engine; rw [if_neg (by show ¬ m.debug = true; rw [hd]; decide)]
  unfold FCM.runInference
  rw [if_pos rfl, rebased_reset hr.clean hr.aux]
  simp only [Bool.false_eq_true, if_false]
  rw [e1, e2]
  cases h1 : FCM.vectorizedInference m with
  | mk r s =>
    cases h2 : FCM.vectorizedInference m.rebased with
    | mk r' s' =>
      rw [h1, h2] at hv
      dsimp only at hv
      cases r with
      | error e => rw [hv.1]; exact ⟨rfl, fun m' => ⟨fun h => (nomatch h), fun h => (nomatch h)⟩⟩
      | ok u =>
        rw [hv.1, hv.2 rfl]
        exact ⟨rfl, fun m' => Iff.rfl⟩

/-- C122, vectorised engine: the new records begin with the values the run started from, and `run_inference()` afterwards
repeats the run without a reset, not the run before it. -/
theorem C122_vector_again {m m' : FCM α} (hr : CleanReachable m) (hd : m.debug = false)
    (h : FCM.runInference false m = (.ok (), m')) :
    (∀ c ∈ m.topology.keys, ∃ v rest, m.getConceptValue c = some v ∧ m'.traj c = v :: rest) ∧
      FCM.runInference true m' = (.ok (), m') := by
  have h' := ((C122_vector hr hd).2 m').1 h
  refine ⟨?_, run_twice (rebased_inv hr.clean.inv) h'⟩
  intro c hc
  obtain ⟨m1, m2, h1, h2, h3, hf, ha, hm2⟩ := run_after (rebased_inv hr.clean.inv) h'
  rw [rebased_reset hr.clean hr.aux] at h1
  cases h1
  obtain ⟨n, hn⟩ := Dict.exists_get?_of_mem hc
  obtain ⟨rest, hx⟩ := ha.heads c n hn
  exact ⟨n.value, rest, by simp [FCM.getConceptValue, hn], by simp [FCM.traj, hx]⟩

/-- C122, vectorised engine, exact arithmetic: what is recorded. -/
theorem C122_vector_records [Exact α] {m m' : FCM α} (hr : CleanReachable m) (hd : m.debug = false) (hne : m.topology ≠ [])
    (hf : KwArgs m) {x : Nat → String → α} (h0 : ∀ k ∈ m.topology.keys, m.getConceptValue k = some (x 0 k))
    (hx : Orbit m.net.vector m.topology.keys x)
    (h2 : ∀ t, ∀ k ∈ m.topology.keys, (x t k =? lit 2) = false) (h : FCM.runInference false m = (.ok (), m')) :
    ∃ l : Nat, (l : Int) ≤ m.maxIter ∧ StopsAt (Level m.topology.keys x m.stabilityDiff) m.extraSteps l ∧
      ∀ k ∈ m.topology.keys, m'.traj k = (List.range (if (l : Int) < m.maxIter then l else l - 1)).map (x · k) := by
  have h' := ((C122_vector hr hd).2 m').1 h
  refine vec_records (m := m.rebased) (rebased_clean hr.clean) hr.reachable.coherent hd hne hf (fun k hk => ?_) hx h2 h'
  obtain ⟨y, ys, hy⟩ := hr.clean.exe k hk
  simp [at', FCM.traj, rebased_get m hy, h0 k hk]

end Vector

namespace Ex

/-- a halves with every step, b follows it; a starts at 1. -/
def fade : List (Op ℚ) :=
  [.addConcept "a" { useMemory := some false }, .addConcept "b" { useMemory := some false },
   .addRelation "a" "a" (1/2), .addRelation "a" "b" 1, .initConcept "a" 1 true]

def fading : FCM ℚ := runOps fade sat0
def faded : FCM ℚ := (FCM.runInference true fading).2
def fadedMore : FCM ℚ := (FCM.runInference false faded).2

theorem fading_clean : CleanReachable fading := cleanReachable_of (.new sat0_new) fade (by decide +kernel)
theorem fading_run : FCM.runInference true fading = (.ok (), faded) := run_eq (by decide +kernel)
theorem faded_run : FCM.runInference false faded = (.ok (), fadedMore) := run_eq (by decide +kernel)
theorem faded_clean : CleanReachable faded := .step (.runInference true) fading_clean fading_run
theorem fading_debug : fading.debug = true := by decide +kernel
theorem faded_debug : faded.debug = true := by decide +kernel
theorem fading_last : fading.decisionName = "LAST" := by decide +kernel

/-- The run ends at 1/8; going on, the two values after it are recorded once more. -/
theorem fade_records : faded.traj "a" = [1, 1/2, 1/4, 1/8, 1/16, 1/32] ∧ faded.getConceptValue "a" = some (1/8) ∧
    fadedMore.traj "a" = [1, 1/2, 1/4, 1/8, 1/16, 1/32] ++ [1/16, 1/32, 1/64, 1/128, 1/256] ∧
    fadedMore.getConceptValue "a" = some (1/64) := by decide +kernel

/-- The same with the vectorised engine. -/
def fadeV : List (Op ℚ) := fade ++ [.assignMaxIter 12, .assignStabilityDiff (1/10), .assignDebug false]
def fadingV : FCM ℚ := runOps fadeV sat0
def fadedV : FCM ℚ := (FCM.runInference true fadingV).2
def fadedMoreV : FCM ℚ := (FCM.runInference false fadedV).2
theorem fadingV_clean : CleanReachable fadingV := cleanReachable_of (.new sat0_new) fadeV (by decide +kernel)
theorem fadingV_run : FCM.runInference true fadingV = (.ok (), fadedV) := run_eq (by decide +kernel)
theorem fadedV_run : FCM.runInference false fadedV = (.ok (), fadedMoreV) := run_eq (by decide +kernel)
theorem fadedV_clean : CleanReachable fadedV := .step (.runInference true) fadingV_clean fadingV_run
theorem fadedV_debug : fadedV.debug = false := by decide +kernel

/-- The first record is lost. -/
theorem fadeV_records : fadedV.traj "a" = [1, 1/2, 1/4, 1/8, 1/16, 1/32, 1/64] ∧ fadedV.getConceptValue "a" = some (1/16) ∧
    fadedMoreV.traj "a" = [1/16, 1/32, 1/64] := by decide +kernel

/-- `odd` after a run, with the vectorised engine: at rest. -/
def oddDone : FCM ℚ := (FCM.runInference true odd).2
def oddRest (_ : Nat) : String → ℚ := oddRun 1
theorem oddDone_clean : CleanReachable oddDone := .step (.runInference true) odd_clean (run_eq odd_returns)
theorem oddDone_debug : oddDone.debug = false := by decide +kernel
theorem oddDone_keys : oddDone.topology.keys = ["a", "b", "f"] := by decide +kernel
theorem oddDone_kw : KwArgs oddDone := by
  have h : (oddDone.topology.all fun p => p.2.fn.all kwOkB) = true := by decide +kernel
  intro c n f hn hf
  have := List.all_eq_true.1 h _ (Dict.get?_mem hn)
  simp only [hf, Option.all_some] at this
  exact kwOk_of this
theorem oddRest_step : ∀ c ∈ ["a", "b", "f"], next oddDone.net.vector (oddRun 1) c = some (.ok (oddRun 1 c)) := by decide +kernel
theorem oddRest_orbit : Orbit oddDone.net.vector oddDone.topology.keys oddRest := by
  intro t c hc
  rw [oddDone_keys] at hc
  exact oddRest_step c hc
theorem oddRest_start : ∀ k ∈ oddDone.topology.keys, oddDone.getConceptValue k = some (oddRest 0 k) := by
  rw [oddDone_keys]; decide +kernel
theorem oddRest_two : ∀ t, ∀ k ∈ oddDone.topology.keys, (oddRest t k =? lit 2) = false := by
  have h1 : ∀ k ∈ ["a", "b", "f"], (oddRun 1 k =? lit 2) = false := by decide +kernel
  intro t k hk
  rw [oddDone_keys] at hk
  exact h1 k hk
theorem oddDone_returns : (FCM.runInference false oddDone).1 = .ok () := by decide +kernel

end Ex

example : ∃ new len, Continued Ex.faded Ex.fadedMore new len := C122_continue Ex.faded_clean Ex.faded_debug Ex.faded_run
example :=
  C122_last Ex.fading_clean Ex.fading_debug Ex.fading_last Ex.fading_run Ex.faded_run
example : ∃ len : Nat, 2 < len ∧ len ≤ 6 := by
  obtain ⟨new, len, hc⟩ := C122_continue Ex.faded_clean Ex.faded_debug Ex.faded_run
  have e1 : Ex.faded.maxIter = 5 := by decide +kernel
  have e2 : Ex.faded.extraSteps = 2 := by decide +kernel
  have := C122_steps hc
  rw [e1, e2] at this
  exact ⟨len, this.1 (by decide) (by decide), this.2⟩
example : FCM.runInference true Ex.fadedMore = (.ok (), Ex.faded) :=
  C122_again Ex.fading_clean Ex.fading_debug Ex.fading_run (.step (.refl _) Ex.faded_run)
example : FCM.runInference true Ex.fadedV.rebased = (.ok (), Ex.fadedMoreV) :=
  ((C122_vector Ex.fadedV_clean Ex.fadedV_debug).2 _).1 Ex.fadedV_run
example : FCM.runInference true Ex.fadedMoreV = (.ok (), Ex.fadedMoreV) :=
  (C122_vector_again Ex.fadedV_clean Ex.fadedV_debug Ex.fadedV_run).2
example :=
  C122_vector_records Ex.oddDone_clean Ex.oddDone_debug
    (by intro h; have := congrArg Dict.keys h; rw [Ex.oddDone_keys] at this; cases this) Ex.oddDone_kw Ex.oddRest_start
    Ex.oddRest_orbit Ex.oddRest_two (Ex.run_eq Ex.oddDone_returns)

theorem Ex.fadedV_again : (FCM.runInference true Ex.fadedMoreV).2 = Ex.fadedMoreV := by
  rw [(C122_vector_again Ex.fadedV_clean Ex.fadedV_debug Ex.fadedV_run).2]

theorem Ex.fadedV_differs : (FCM.runInference true Ex.fadedMoreV).2.traj "a" ≠ Ex.fadedV.traj "a" := by
  rw [Ex.fadedV_again, Ex.fadeV_records.1, Ex.fadeV_records.2.2]
  intro h
  have := congrArg List.length h
  simp at this

/-- Going on with the vectorised engine and running again does not reproduce the first run. -/
theorem C122_vector_counterexample : ¬ ∀ m m' m'' : FCM ℚ, CleanReachable m → FCM.runInference true m = (.ok (), m') →
    FCM.runInference false m' = (.ok (), m'') → (FCM.runInference true m'').2.traj "a" = m'.traj "a" := fun h =>
  Ex.fadedV_differs (h Ex.fadingV Ex.fadedV Ex.fadedMoreV Ex.fadingV_clean Ex.fadingV_run Ex.fadedV_run)

end PyFCM
