import Verif.Lemmas.VectorTerm
import Verif.Lemmas.Clean
import Verif.Props.Decision
/-
When the iterative engine cannot raise.
-/
namespace PyFCM
open Arith Spec

set_option linter.unusedSectionVars false

variable {α : Type} [Arith α]

/-- The concept has everything a step reads, and its activation function accepts every input. -/
structure Node.Able (n : Node α) : Prop where
  exec : ∃ ex, n.exec = some ex
  useMem : ∃ um, n.useMem = some um
  fn : ∃ f, n.fn = some f
  sum : ∀ f, n.fn = some f → f.name = "fuzzy" → (n.actvSum =? lit 0) = false
  total : ∀ f, n.fn = some f → ∀ x, ∃ v, callActv f.fn x f.args = .ok v

/-- No round of the loops of a step can raise. -/
structure Live (m : FCM α) : Prop where
  keys : SameKeys m
  ends : ∀ a ∈ m.arcList, a.origin ∈ m.topology.keys ∧ a.dest ∈ m.topology.keys
  node : ∀ c n, m.topology.get? c = some n → n.Able

theorem Live.setNode {m : FCM α} (h : Live m) {c : String} (hc : c ∈ m.topology.keys) {n : Node α} (hn : n.Able) :
    Live { m with topology := m.topology.set c n } := by
  have hk : (m.topology.set c n).keys = m.topology.keys := Dict.keys_set_of_mem _ _ _ hc
  refine ⟨fun d => ?_, fun a ha => ?_, fun d x hx => ?_⟩
  · show d ∈ (m.topology.set c n).keys ↔ _
    rw [hk]; exact h.keys d
  · show _ ∈ (m.topology.set c n).keys ∧ _ ∈ (m.topology.set c n).keys
    rw [hk]; exact h.ends a ha
  · by_cases e : d = c
    · subst e
      have : (m.topology.set d n).get? d = some x := hx
      rw [Dict.get?_set_self] at this
      cases this
      exact hn
    · have : (m.topology.set c n).get? d = some x := hx
      rw [Dict.get?_set_ne _ _ (Ne.symm e)] at this
      exact h.node d x this

theorem Live.setBoth {m : FCM α} (h : Live m) {c : String} (hc : c ∈ m.topology.keys) (hx : c ∈ m.execution.keys)
    {n : Node α} (hn : n.Able) {xs : List α} :
    Live { m with topology := m.topology.set c n, execution := m.execution.set c xs } := by
  have h' := h.setNode hc hn
  refine ⟨fun d => ?_, h'.ends, h'.node⟩
  show _ ↔ d ∈ (m.execution.set c xs).keys
  rw [Dict.keys_set_of_mem _ _ _ hx]
  exact h'.keys d

theorem gatherArc_live {m : FCM α} (h : Live m) {a : Arc α} (ha : a ∈ m.arcList) :
    ∃ m', gatherArc a m = (.ok (), m') ∧ Live m' ∧ m'.arcList = m.arcList := by
  obtain ⟨h1, h2⟩ := h.ends a ha
  obtain ⟨o, ho⟩ := Dict.exists_get?_of_mem h1
  obtain ⟨d, hd⟩ := Dict.exists_get?_of_mem h2
  have hdn := h.node _ _ hd
  unfold gatherArc
  rw [ho]
  dsimp only
  split
  · obtain ⟨ex, hex⟩ := (h.node _ _ ho).exec
    rw [hex, hd]
    exact ⟨_, rfl, h.setNode h2 ⟨hdn.exec, hdn.useMem, hdn.fn, hdn.sum, hdn.total⟩, rfl⟩
  · exact ⟨_, rfl, h, rfl⟩

theorem gather_live : ∀ (as : List (Arc α)) (m : FCM α), Live m → (∀ a ∈ as, a ∈ m.arcList) →
    ∃ m', PyM.forEach as gatherArc m = (.ok (), m') ∧ Live m'
  | [], m, h, _ => ⟨m, rfl, h⟩
  | a :: as, m, h, ha => by
    obtain ⟨m1, e1, l1, a1⟩ := gatherArc_live h (ha a (by simp))
    obtain ⟨m2, e2, l2⟩ := gather_live as m1 l1 (fun b hb => by rw [a1]; exact ha b (by simp [hb]))
    exact ⟨m2, by simp only [PyM.forEach, e1]; exact e2, l2⟩

theorem stepNode_live {m : FCM α} (h : Live m) {c : String} (hc : c ∈ m.execution.keys) :
    ∃ m', stepNode c m = (.ok (), m') ∧ Live m' ∧ m'.execution.keys = m.execution.keys := by
  have hct : c ∈ m.topology.keys := (h.keys c).2 hc
  obtain ⟨n, hn⟩ := Dict.exists_get?_of_mem hct
  obtain ⟨xs, hxs⟩ := Dict.exists_get?_of_mem hc
  have ha := h.node _ _ hn
  obtain ⟨ex, hex⟩ := ha.exec
  obtain ⟨um, hum⟩ := ha.useMem
  obtain ⟨f, hf⟩ := ha.fn
  obtain ⟨y, hy⟩ : ∃ y, (if f.name = "fuzzy" then pdiv (ex.1.run n.aux n.value um) n.actvSum
      else .ok (ex.1.run n.aux n.value um)) = .ok y := by
    split
    · rename_i hz
      unfold pdiv
      rw [ha.sum f hf hz]
      exact ⟨_, rfl⟩
    · exact ⟨_, rfl⟩
  obtain ⟨v, hv⟩ := ha.total f hf y
  unfold stepNode
  rw [hn]
  dsimp only
  rw [hex]
  dsimp only
  rw [hum]
  dsimp only
  rw [hf]
  dsimp only
  rw [hy]
  dsimp only
  rw [hv]
  dsimp only
  rw [hxs]
  refine ⟨_, rfl, ?_, Dict.keys_set_of_mem _ _ _ hc⟩
  rw [Dict.set_set]
  refine h.setBoth hct hc ?_
  exact ⟨⟨ex, rfl⟩, ⟨um, rfl⟩, ⟨f, rfl⟩, fun g hg => ha.sum g (hf.trans hg), fun g hg => ha.total g (hf.trans hg)⟩

theorem stepNodes_live : ∀ (cs : List String) (m : FCM α), Live m → (∀ c ∈ cs, c ∈ m.execution.keys) →
    ∃ m', PyM.forEach cs stepNode m = (.ok (), m') ∧ Live m'
  | [], m, h, _ => ⟨m, rfl, h⟩
  | c :: cs, m, h, hc => by
    obtain ⟨m1, e1, l1, a1⟩ := stepNode_live h (hc c (by simp))
    obtain ⟨m2, e2, l2⟩ := stepNodes_live cs m1 l1 (fun b hb => by rw [a1]; exact hc b (by simp [hb]))
    exact ⟨m2, by simp only [PyM.forEach, e1]; exact e2, l2⟩

theorem stepOnce_live {m : FCM α} (h : Live m) : ∃ m', FCM.stepOnce m = (.ok (), m') ∧ Live m' := by
  obtain ⟨m1, e1, l1⟩ := gather_live m.arcList m h (fun _ ha => ha)
  obtain ⟨m2, e2, l2⟩ := stepNodes_live m1.execution.keys m1 l1 (fun _ hc => hc)
  unfold FCM.stepOnce
  rw [e1]
  dsimp only
  rw [e2]
  exact ⟨_, rfl, ⟨l2.keys, l2.ends, l2.node⟩⟩

theorem iterLoop_live {m0 : FCM α} : ∀ (fuel extra : Nat) (m : FCM α), Running m0 m → Live m →
    (FCM.iterLoop fuel extra m).1 = .error .diverge ∨ (FCM.iterLoop fuel extra m).1 = .ok ()
  | 0, extra, m, _, _ => by
    unfold FCM.iterLoop
    split
    · exact .inl rfl
    · exact .inr rfl
  | fuel + 1, extra, m, hr, hl => by
    unfold FCM.iterLoop
    split
    · obtain ⟨b, hb, -⟩ := keepExecution_running hr
      obtain ⟨m1, e1, l1⟩ := stepOnce_live hl
      rw [hb]
      dsimp only
      rw [e1]
      exact iterLoop_live fuel _ m1 (stepOnce_running hr e1).1 l1
    · exact .inr rfl

theorem resetOne_live {m : FCM α} (hx : ∀ c ∈ m.topology.keys, ∃ x xs, m.execution.get? c = some (x :: xs)) {c : String} :
    ∃ m', resetOne c m = (.ok (), m') ∧ (∀ d ∈ m'.topology.keys, ∃ x xs, m'.execution.get? d = some (x :: xs)) := by
  unfold resetOne
  cases hn : m.topology.get? c with
  | none => exact ⟨_, rfl, hx⟩
  | some n =>
    have hc := Dict.mem_keys_of_get? hn
    obtain ⟨x, xs, e⟩ := hx c hc
    dsimp only
    rw [e]
    refine ⟨_, rfl, fun d hd => ?_⟩
    have hd' : d ∈ m.topology.keys := by
      have : d ∈ (((m.topology.set c { n with aux := [] }).set c { n with value := x, aux := [] })).keys := hd
      rw [Dict.set_set, Dict.keys_set_of_mem _ _ _ hc] at this
      exact this
    by_cases e' : d = c
    · subst e'
      exact ⟨x, [], Dict.get?_set_self _ _ _⟩
    · obtain ⟨y, ys, he⟩ := hx d hd'
      exact ⟨y, ys, by show (m.execution.set c [x]).get? d = _; rw [Dict.get?_set_ne _ _ (Ne.symm e')]; exact he⟩

theorem resetAll_live : ∀ (cs : List String) (m : FCM α),
    (∀ c ∈ m.topology.keys, ∃ x xs, m.execution.get? c = some (x :: xs)) →
    ∃ m', PyM.forEach cs resetOne m = (.ok (), m')
  | [], m, _ => ⟨m, rfl⟩
  | c :: cs, m, h => by
    obtain ⟨m1, e1, h1⟩ := resetOne_live h (c := c)
    obtain ⟨m2, e2⟩ := resetAll_live cs m1 h1
    exact ⟨m2, by simp only [PyM.forEach, e1]; exact e2⟩

theorem engine_live {m : FCM α} (hm : Inv m) (hd : m.debug = true) (hx : ∀ c n, m.topology.get? c = some n →
    m.execution.get? c = some [n.value]) (ha : AuxEmpty m) (hl : Live m) :
    (FCM.engine m).1 = .error .diverge ∨ (FCM.engine m).1 = .ok () := by
  unfold FCM.engine
  rw [if_pos hd]
  unfold FCM.iterativeInference
  have htr : ∀ c ∈ m.topology.keys, (m.traj c).length = 1 := by
    intro c hc
    obtain ⟨n, hn⟩ := Dict.exists_get?_of_mem hc
    simp [FCM.traj, hx c n hn]
  have hr0 : Running { m with iterations := 1 } { m with iterations := 1 } := by
    refine ⟨SameMap.refl _, hm.congr rfl rfl rfl rfl rfl rfl rfl rfl, hl.keys, ha, Nat.le_refl _, ?_, ?_, fun _ _ => rfl⟩
    · intro c n hn
      have := hx c n hn
      simp [at', FCM.traj, this]
    · intro c hc
      exact ⟨htr c hc, fun t ht => by simp at ht⟩
  exact iterLoop_live _ _ _ hr0 ⟨hl.keys, hl.ends, hl.node⟩

theorem decideBy_total {nm : String} {f : DecFn} (h : Decision.getByName nm = some f) (hne : nm ≠ "EXITED")
    {xs : List α} (hx : xs ≠ []) (extra : Nat) : ∃ v, decideBy nm xs extra = some v := by
  have hl : 0 < xs.length := List.length_pos_iff.2 hx
  unfold decideBy
  by_cases h1 : nm = "LAST"
  · rw [if_pos h1]
    unfold decideLast
    split
    · exact ⟨_, List.getElem?_eq_getElem (by omega)⟩
    · exact ⟨_, List.getElem?_eq_getElem (by omega)⟩
  · rw [if_neg h1]
    by_cases h2 : nm = "MEAN"
    · rw [if_pos h2]
      unfold decideMean
      dsimp only
      rw [if_neg]
      · exact ⟨_, rfl⟩
      · split
        · rw [List.take_eq_nil_iff]
          rintro (h | h)
          · omega
          · exact hx h
        · exact hx
    · unfold Decision.getByName at h
      rw [if_neg h1, if_neg h2, if_neg hne] at h
      cases h

/-- The decision functions are defined on every non-empty run, except EXITED on a run of `extra_steps + 1` states. -/
theorem decideBy_defined {nm : String} {f : DecFn} (h : Decision.getByName nm = some f) {xs : List α} {extra : Nat}
    (hx : xs ≠ []) : (∃ v, decideBy nm xs extra = some v) ↔ (nm = "EXITED" → xs.length ≠ extra + 1) := by
  by_cases hn : nm = "EXITED"
  · subst hn
    have e : decideBy "EXITED" xs extra = decideExited xs extra := by
      unfold decideBy
      rw [if_neg (by decide), if_neg (by decide), if_pos rfl]
    rw [e]
    unfold decideExited
    have hmax : ∀ ys : List α, (∃ v, maxOf ys = some v) ↔ ys ≠ [] := by
      intro ys
      cases ys with
      | nil => simp [maxOf]
      | cons y ys => simp [maxOf]
    have hl : 0 < xs.length := List.length_pos_iff.2 hx
    split
    · rw [hmax]
      refine ⟨fun h _ e => h ?_, fun h e => h rfl ?_⟩
      · rw [e]; simp
      · rcases List.take_eq_nil_iff.1 e with e | e
        · omega
        · exact absurd e hx
    · rw [hmax]
      exact ⟨fun _ _ => by omega, fun _ => hx⟩
  · exact ⟨fun _ h => absurd h hn, fun _ => decideBy_total h hn hx extra⟩

/-- The iterative engine cannot raise on a map whose concepts are complete and accept every input, if the decision
function accepts the recorded values. -/
theorem run_live {m : FCM α} (hm : CleanInv m) (hd : m.debug = true)
    (hn : ∀ c n f, m.topology.get? c = some n → n.fn = some f →
      (f.name = "fuzzy" → (n.actvSum =? lit 0) = false) ∧ ∀ x, ∃ v, callActv f.fn x f.args = .ok v)
    (hdec : m.decisionName ≠ "EXITED") : ∃ m', FCM.runInference true m = (.ok (), m') := by
  obtain ⟨m1, h1⟩ := resetAll_live m.topology.keys m hm.exe
  have h1 : FCM.resetExecution m = (.ok (), m1) := h1
  obtain ⟨e1, kt1, ke1, hk, hall1⟩ := reset_spec hm.inv h1
  have hm1 : Inv m1 := by have := reset_pres m hm.inv; rwa [h1] at this
  have get1 : ∀ c n, m1.topology.get? c = some n → ∃ n0 v rest, m.topology.get? c = some n0 ∧
      m.execution.get? c = some (v :: rest) ∧ n = setVal v n0 ∧ m1.execution.get? c = some [v] := by
    intro c n hn
    have hc : c ∈ m.topology.keys := by rw [← kt1]; exact Dict.mem_keys_of_get? hn
    obtain ⟨n0, v, rest, a, b, d, f⟩ := hall1 c hc
    rw [hn] at d; cases d
    exact ⟨n0, v, rest, a, b, rfl, f⟩
  have ha1 : AuxEmpty m1 := by
    intro c n hn
    obtain ⟨n0, v, rest, _, _, rfl, _⟩ := get1 c n hn
    rfl
  have hx1 : ∀ c n, m1.topology.get? c = some n → m1.execution.get? c = some [n.value] := by
    intro c n hn
    obtain ⟨n0, v, rest, _, _, rfl, hx⟩ := get1 c n hn
    exact hx
  have hk1 : SameKeys m1 := by intro c; rw [kt1, ke1]; exact hk c
  have hl1 : Live m1 := by
    refine ⟨hk1, hm1.ends, fun c n hc => ?_⟩
    obtain ⟨n0, v, rest, hn0, -, rfl, -⟩ := get1 c n hc
    have hg := (hm.good c n0 hn0).full
    exact ⟨Option.isSome_iff_exists.1 hg.exec, Option.isSome_iff_exists.1 hg.useMem, Option.isSome_iff_exists.1 hg.fn,
      fun f hf => (hn c n0 f hn0 hf).1, fun f hf => (hn c n0 f hn0 hf).2⟩
  have hne := run_ne_diverge true m
  obtain ⟨m2, h2⟩ : ∃ m2, FCM.engine m1 = (.ok (), m2) := by
    rcases engine_live hm1 (by rw [e1]; exact hd) hx1 ha1 hl1 with h | h
    · exfalso
      apply hne
      unfold FCM.runInference
      simp only [if_true]
      rw [h1]
      dsimp only
      cases he : FCM.engine m1 with
      | mk r s => rw [he] at h; dsimp only at h; subst h; rfl
    · exact ⟨_, by rw [← h]⟩
  have h2' := h2
  unfold FCM.engine at h2'
  rw [if_pos (by rw [e1]; exact hd)] at h2'
  obtain ⟨hr, hs⟩ := iterative_spec hm1 hk1 ha1 hx1 h2'
  obtain ⟨m3, h3⟩ := decideAll_success (m := m2) (by
    intro c hc
    have hc1 : c ∈ m1.topology.keys := by rw [← hr.same.keys]; exact hc
    obtain ⟨xs, hxs⟩ := Dict.exists_get?_of_mem ((hr.keys c).1 hc)
    have hlen := (hr.run c hc1).1
    have : m2.traj c = xs := by simp [FCM.traj, hxs]
    rw [this] at hlen
    have hxne : xs ≠ [] := by
      intro e
      rw [e] at hlen
      have := hr.pos
      simp at hlen
      omega
    have hdec2 : m2.decisionName = m.decisionName := by rw [hr.same.eq, e1]
    obtain ⟨v, hv⟩ := decideBy_total hr.inv.dec (by rw [hdec2]; exact hdec) hxne m2.extraSteps
    exact ⟨xs, v, hxs, (decFn_eq hr.inv.dec _ _ _).2 hv⟩)
  refine ⟨m3, ?_⟩
  unfold FCM.runInference
  simp only [if_true]
  rw [h1]
  dsimp only
  rw [h2]
  exact h3

end PyFCM
