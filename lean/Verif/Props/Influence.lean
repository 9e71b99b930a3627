import Verif.Props.Success
import Verif.Props.Dynamics
import Verif.Props.Inference
import Verif.Props.State
/-
C76: who can influence whom.
-/
namespace PyFCM
open Arith Spec

section
variable {α : Type} [Arith α]

/-! ### C76: only what lies downstream of a change is affected -/

/-- `a` influences `a`, and whatever is at the end of a relation from a concept it influences. -/
inductive Spec.Influences (N : Net α) (a : String) : String → Prop
  | self : Influences N a a
  | along (r : Rel α) : r ∈ N.rels → Influences N a r.origin → Influences N a r.dest

/-- `S` contains every concept that has a relation into `S`. -/
def Spec.Upstream (N : Net α) (S : String → Prop) : Prop := ∀ r ∈ N.rels, S r.dest → S r.origin

/-- The two maps have the same concepts in `S`, with the same relations into them. -/
structure Spec.AgreeOn (S : String → Prop) (N M : Net α) : Prop where
  concepts : ∀ c, S c → N.concept c = M.concept c
  rels : ∀ c, S c → N.rels.filter (fun r => r.dest == c) = M.rels.filter (fun r => r.dest == c)

theorem inputs_filter (N : Net α) (A : String → α) (c : String) :
    inputs N A c = (N.rels.filter (fun r => r.dest == c)).filterMap (along N A c) := by
  unfold inputs
  induction N.rels with
  | nil => rfl
  | cons r rs ih =>
    by_cases h : r.dest = c
    · rw [List.filter_cons_of_pos (by simpa using h), List.filterMap_cons, List.filterMap_cons, ih]
    · rw [List.filter_cons_of_neg (by simpa using h), List.filterMap_cons, ih]
      have : along N A c r = none := by unfold along; rw [if_neg h]
      rw [this]

theorem next_agree {S : String → Prop} {N M : Net α} (hS : Upstream N S) (h : AgreeOn S N M) {A B : String → α}
    (hAB : ∀ c, S c → A c = B c) {c : String} (hc : S c) : next N A c = next M B c := by
  have hin : inputs N A c = inputs M B c := by
    rw [inputs_filter, inputs_filter, ← h.rels c hc]
    apply List.filterMap_congr
    intro r hr
    obtain ⟨hr1, hr2⟩ := List.mem_filter.1 hr
    have hd : r.dest = c := by simpa using hr2
    have ho : S r.origin := hS r hr1 (by rw [hd]; exact hc)
    unfold along
    rw [if_pos hd, if_pos hd, h.concepts _ ho, hAB _ ho]
  unfold next
  rw [h.concepts c hc, hin, hAB c hc]

/-- Two runs of the recurrence agree on `S` as long as both go on. -/
theorem run_agree {S : String → Prop} {N M : Net α} (hS : Upstream N S) (h : AgreeOn S N M) {cs ds : List String}
    {f g : String → List α} {k l : Nat} (hf : IsRun N cs f k) (hg : IsRun M ds g l)
    (hcs : ∀ c, S c → c ∈ cs ∧ c ∈ ds) (h0 : ∀ c, S c → at' f 0 c = at' g 0 c) :
    ∀ t, t < k → t < l → ∀ c, S c → at' f t c = at' g t c := by
  intro t
  induction t with
  | zero => intro _ _ c hc; exact h0 c hc
  | succ t ih =>
    intro hk hl c hc
    have e1 := (hf c (hcs c hc).1).2 t hk
    have e2 := (hg c (hcs c hc).2).2 t hl
    rw [next_agree hS h (ih (by omega) (by omega)) hc, e2] at e1
    simpa using e1.symm

/-- Two maps that agree on a set `S` of concepts closed under predecessors, also in the initial activations, record
the same values for the concepts of `S` at every step both of them reach. -/
theorem C76_upstream {m k m' k' : FCM α} (hm : Reachable m) (hk : Reachable k) (dm : m.debug = true)
    (dk : k.debug = true) (rm : FCM.runInference true m = (.ok (), m')) (rk : FCM.runInference true k = (.ok (), k'))
    {S : String → Prop} (hS : Upstream m.net S) (h : AgreeOn S m.net k.net)
    (hcs : ∀ c, S c → c ∈ m.topology.keys ∧ c ∈ k.topology.keys) (h0 : ∀ c, S c → at' m.traj 0 c = at' k.traj 0 c)
    {c : String} (hc : S c) {t : Nat} (h1 : t < (m'.traj c).length) (h2 : t < (k'.traj c).length) :
    at' m'.traj t c = at' k'.traj t c := by
  obtain ⟨a, -, ha, ia, -⟩ := C01_recurrence hm dm rm
  obtain ⟨b, -, hb, ib, -⟩ := C01_recurrence hk dk rk
  rw [(ha c (hcs c hc).1).1] at h1
  rw [(hb c (hcs c hc).2).1] at h2
  refine run_agree hS h ha hb hcs (fun d hd => ?_) t h1 h2 c hc
  rw [(ia d (hcs d hd).1).2, (ib d (hcs d hd).2).2, h0 d hd]

/-- With `stop_at_stabilize=False` both runs have the same length, so that the final values agree as well. -/
theorem C76_final {m k m' k' : FCM α} (hm : Reachable m) (hk : Reachable k) (dm : m.debug = true)
    (dk : k.debug = true) (rm : FCM.runInference true m = (.ok (), m')) (rk : FCM.runInference true k = (.ok (), k'))
    {S : String → Prop} (hS : Upstream m.net S) (h : AgreeOn S m.net k.net)
    (hcs : ∀ c, S c → c ∈ m.topology.keys ∧ c ∈ k.topology.keys) (h0 : ∀ c, S c → at' m.traj 0 c = at' k.traj 0 c)
    (sm : m.stopAtStabilize = false) (sk : k.stopAtStabilize = false) (he : k.extraSteps = m.extraSteps)
    (hi : k.maxIter = m.maxIter) (hd : k.decisionName = m.decisionName) {c : String} (hc : S c) :
    k'.traj c = m'.traj c ∧ k'.getConceptValue c = m'.getConceptValue c := by
  have hl : (k'.traj c).length = (m'.traj c).length := by
    by_cases h2 : 2 ≤ m.extraSteps
    · have a := C02_exact hm dm sm h2 rm (hcs c hc).1
      have b := C02_exact hk dk sk (by rw [he]; exact h2) rk (hcs c hc).2
      rw [he, hi, ← a] at b
      exact_mod_cast b
    · have e1 : m.extraSteps = 1 := by have := hm.inv.extra; omega
      rw [C02_no_step hm dm e1 rm (hcs c hc).1, C02_no_step hk dk (he.trans e1) rk (hcs c hc).2]
  have htr : k'.traj c = m'.traj c := by
    apply List.ext_getElem hl
    intro i h1 h2
    have := C76_upstream hm hk dm dk rm rk hS h hcs h0 hc h2 h1
    unfold at' at this
    simpa [List.getD_eq_getElem?_getD, h1, h2] using this.symm
  refine ⟨htr, ?_⟩
  obtain ⟨u, hu, du⟩ := C08_final_value hm rm (hcs c hc).1
  obtain ⟨v, hv, dv⟩ := C08_final_value hk rk (hcs c hc).2
  rw [htr, he, hd, du] at dv
  rw [hu, hv, Option.some.inj dv]

omit [Arith α] in
/-- What is not influenced by `b` is closed under predecessors. -/
theorem upstream_of (N : Net α) (b : String) : Upstream N (fun c => ¬ Influences N b c) :=
  fun r hr h hi => h (.along r hr hi)

theorem initConcept_effect {m k : FCM α} {b : String} {v : α} (h : FCM.initConcept b v true m = (.ok (), k)) :
    k.net = m.net ∧ k.topology.keys = m.topology.keys ∧ (∀ c, c ≠ b → k.traj c = m.traj c) ∧
      k.debug = m.debug ∧ k.stopAtStabilize = m.stopAtStabilize ∧ k.extraSteps = m.extraSteps ∧ k.maxIter = m.maxIter ∧
      k.decisionName = m.decisionName := by
  unfold FCM.initConcept at h
  have key : ∀ (n n' : Node α) (x : α), m.topology.get? b = some n → n'.toSpec = n.toSpec →
      k = { m with topology := m.topology.set b n', execution := m.execution.set b [x] } →
      k.net = m.net ∧ k.topology.keys = m.topology.keys ∧ (∀ c, c ≠ b → k.traj c = m.traj c) ∧
      k.debug = m.debug ∧ k.stopAtStabilize = m.stopAtStabilize ∧ k.extraSteps = m.extraSteps ∧ k.maxIter = m.maxIter ∧
      k.decisionName = m.decisionName := by
    intro n n' x hn hs e
    subst e
    refine ⟨?_, Dict.keys_set_of_mem _ _ _ (Dict.mem_keys_of_get? hn), fun c hc => ?_, rfl, rfl, rfl, rfl, rfl⟩
    · unfold FCM.net
      congr 1
      funext c
      by_cases e : c = b
      · subst e
        show ((m.topology.set c n').get? c).bind _ = _
        rw [Dict.get?_set_self, hn]
        exact hs
      · show ((m.topology.set b n').get? c).bind _ = _
        rw [Dict.get?_set_ne _ _ (Ne.symm e)]
    · show ((m.execution.set b [x]).get? c).getD [] = _
      rw [Dict.get?_set_ne _ _ (Ne.symm hc)]
      rfl
  split at h
  · cases h
  · rename_i n hn
    split at h
    · cases h
    · split at h
      · split at h
        · cases h
        · split at h
          · cases h
          · cases h
            exact key n { n with value := _, aux := [] } _ hn rfl rfl
      · cases h
        exact key n { n with value := _, aux := [] } _ hn rfl rfl

/-- `init_concept(b, v)` affects only concepts influenced by `b`. -/
theorem C76_init {m k m' k' : FCM α} (hm : Reachable m) (dm : m.debug = true) {b : String} {v : α}
    (hi : FCM.initConcept b v true m = (.ok (), k)) (rm : FCM.runInference true m = (.ok (), m'))
    (rk : FCM.runInference true k = (.ok (), k')) {c : String} (hc : c ∈ m.topology.keys)
    (hn : ¬ Influences m.net b c) :
    (∀ t, t < (m'.traj c).length → t < (k'.traj c).length → at' m'.traj t c = at' k'.traj t c) ∧
      (m.stopAtStabilize = false → k'.traj c = m'.traj c ∧ k'.getConceptValue c = m'.getConceptValue c) := by
  obtain ⟨e1, e2, e3, e4, e5, e6, e7, e8⟩ := initConcept_effect hi
  have hk : Reachable k := by
    have := hm.after (.initConcept b v true)
    have e : (Op.initConcept b v true).run m = (.ok (), k) := hi
    rwa [e] at this
  have hS : Upstream m.net (fun c => c ∈ m.topology.keys ∧ ¬ Influences m.net b c) := by
    intro r hr hrd
    refine ⟨?_, upstream_of m.net b r hr hrd.2⟩
    obtain ⟨a, ha, rfl⟩ := List.mem_map.1 hr
    exact (hm.inv.ends a ha).1
  have hag : AgreeOn (fun c => c ∈ m.topology.keys ∧ ¬ Influences m.net b c) m.net k.net := by
    rw [e1]; exact ⟨fun _ _ => rfl, fun _ _ => rfl⟩
  have h0 : ∀ c, c ∈ m.topology.keys ∧ ¬ Influences m.net b c → at' m.traj 0 c = at' k.traj 0 c := by
    intro d hd
    unfold at'
    rw [e3 d (fun e => hd.2 (e ▸ .self))]
  have hcs : ∀ c, c ∈ m.topology.keys ∧ ¬ Influences m.net b c → c ∈ m.topology.keys ∧ c ∈ k.topology.keys :=
    fun d hd => ⟨hd.1, by rw [e2]; exact hd.1⟩
  refine ⟨fun t h1 h2 => C76_upstream hm hk dm (e4.trans dm) rm rk hS hag hcs h0 ⟨hc, hn⟩ h1 h2, fun hs => ?_⟩
  exact C76_final hm hk dm (e4.trans dm) rm rk hS hag hcs h0 hs (e5.trans hs) e6 e7 e8 ⟨hc, hn⟩

theorem addRelation_effect {m k : FCM α} {o d : String} {w : α} (h : FCM.addRelation o d w m = (.ok (), k)) :
    (∀ c, c ≠ d → k.net.concept c = m.net.concept c) ∧
      (∀ c, c ≠ d → k.net.rels.filter (fun r => r.dest == c) = m.net.rels.filter (fun r => r.dest == c)) ∧
      k.topology.keys = m.topology.keys ∧ k.traj = m.traj ∧
      k.debug = m.debug ∧ k.stopAtStabilize = m.stopAtStabilize ∧ k.extraSteps = m.extraSteps ∧ k.maxIter = m.maxIter ∧
      k.decisionName = m.decisionName := by
  unfold FCM.addRelation at h
  dsimp only at h
  split at h
  case isFalse => cases h; exact ⟨fun _ _ => rfl, fun _ _ => rfl, rfl, rfl, rfl, rfl, rfl, rfl, rfl⟩
  case isTrue hh =>
    have hkeys : ((m.topology.modify o fun n => { n with arcs := n.arcs ++ [(d, w)] }).modify d
        fun n => { n with actvSum := n.actvSum + w }).keys = m.topology.keys := by
      rw [Dict.keys_modify, Dict.keys_modify]
    have hget : ∀ c, c ≠ d → (((m.topology.modify o fun n => { n with arcs := n.arcs ++ [(d, w)] }).modify d
        fun n => { n with actvSum := n.actvSum + w }).get? c).bind Node.toSpec = (m.topology.get? c).bind Node.toSpec := by
      intro c hc
      rw [Dict.get?_modify, if_neg (Ne.symm hc)]
      by_cases e : c = o
      · subst e
        rw [Dict.get?_modify, if_pos rfl]
        cases m.topology.get? c <;> rfl
      · rw [Dict.get?_modify, if_neg (Ne.symm e)]
    have hrels : ∀ c, c ≠ d → ((m.arcList ++ [(⟨d, w, o⟩ : Arc α)]).map Arc.toSpec).filter (fun r => r.dest == c) =
        (m.arcList.map Arc.toSpec).filter (fun r => r.dest == c) := by
      intro c hc
      rw [List.map_append, List.filter_append]
      have : (List.map Arc.toSpec [(⟨d, w, o⟩ : Arc α)]).filter (fun r => r.dest == c) = ([] : List (Rel α)) := by
        have hb : (d == c) = false := by simpa using Ne.symm hc
        simp [Arc.toSpec, hb]
      rw [this, List.append_nil]
    split at h
    · cases h
      exact ⟨hget, hrels, hkeys, rfl, rfl, rfl, rfl, rfl, rfl⟩
    · split at h
      · cases h
      · rename_i n hn
        split at h
        · cases h
        · cases h
          refine ⟨fun c hc => ?_, hrels, ?_, rfl, rfl, rfl, rfl, rfl, rfl⟩
          · rw [← show _ = m.net.concept c from hget c hc]
            show (Dict.get? (Dict.set _ d _) c).bind _ = _
            rw [Dict.get?_set_ne _ _ (Ne.symm hc)]
          · rw [← hkeys]
            exact Dict.keys_set_of_mem _ _ _ (Dict.mem_keys_of_get? hn)

/-- `add_relation(o, d, w)` affects only concepts influenced by `d`. -/
theorem C76_relation {m k m' k' : FCM α} (hm : Reachable m) (dm : m.debug = true) {o d : String} {w : α}
    (hi : FCM.addRelation o d w m = (.ok (), k)) (rm : FCM.runInference true m = (.ok (), m'))
    (rk : FCM.runInference true k = (.ok (), k')) {c : String} (hc : c ∈ m.topology.keys)
    (hn : ¬ Influences m.net d c) :
    (∀ t, t < (m'.traj c).length → t < (k'.traj c).length → at' m'.traj t c = at' k'.traj t c) ∧
      (m.stopAtStabilize = false → k'.traj c = m'.traj c ∧ k'.getConceptValue c = m'.getConceptValue c) := by
  obtain ⟨e0, e1, e2, e3, e4, e5, e6, e7, e8⟩ := addRelation_effect hi
  have hk : Reachable k := by
    have := hm.after (.addRelation o d w)
    have e : (Op.addRelation o d w).run m = (.ok (), k) := hi
    rwa [e] at this
  have hS : Upstream m.net (fun c => c ∈ m.topology.keys ∧ ¬ Influences m.net d c) := by
    intro r hr hrd
    refine ⟨?_, upstream_of m.net d r hr hrd.2⟩
    obtain ⟨a, ha, rfl⟩ := List.mem_map.1 hr
    exact (hm.inv.ends a ha).1
  have hne : ∀ c, ¬ Influences m.net d c → c ≠ d := fun c h e => h (e ▸ .self)
  have hag : AgreeOn (fun c => c ∈ m.topology.keys ∧ ¬ Influences m.net d c) m.net k.net :=
    ⟨fun c hc => (e0 c (hne c hc.2)).symm, fun c hc => (e1 c (hne c hc.2)).symm⟩
  have h0 : ∀ c, c ∈ m.topology.keys ∧ ¬ Influences m.net d c → at' m.traj 0 c = at' k.traj 0 c := by
    intro c _
    rw [e3]
  have hcs : ∀ c, c ∈ m.topology.keys ∧ ¬ Influences m.net d c → c ∈ m.topology.keys ∧ c ∈ k.topology.keys :=
    fun c hd => ⟨hd.1, by rw [e2]; exact hd.1⟩
  refine ⟨fun t h1 h2 => C76_upstream hm hk dm (e4.trans dm) rm rk hS hag hcs h0 ⟨hc, hn⟩ h1 h2, fun hs => ?_⟩
  exact C76_final hm hk dm (e4.trans dm) rm rk hS hag hcs h0 hs (e5.trans hs) e6 e7 e8 ⟨hc, hn⟩

end

/-! ### Concrete cases -/

namespace Ex

/-- a -(1/8)-> b -(1/2)-> c and a lonely d; a and b halve their own value at each step. -/
def chainOps : List (Op ℚ) :=
  [.addConcept "a" { useMemory := some false }, .addConcept "b" { useMemory := some false },
   .addConcept "c" { useMemory := some false }, .addConcept "d" {},
   .addRelation "a" "b" (1/8), .addRelation "b" "c" (1/2), .addRelation "a" "a" (1/2), .addRelation "b" "b" (1/2),
   .initConcept "a" (1/8) true, .initConcept "d" (1/2) true, .assignMaxIter 30]

def chain4 : FCM ℚ := runOps chainOps sat0
theorem chain4_reachable : Reachable chain4 := reachable_made chainOps sat0_new

/-- Neither a nor d is influenced by b. -/
theorem chain4_free {x : String} (hx : x = "a" ∨ x = "d") : ¬ Influences chain4.net "b" x := by
  have key : ∀ y, Influences chain4.net "b" y → y = "b" ∨ y = "c" := by
    intro y hy
    induction hy with
    | self => exact .inl rfl
    | along r hr _ ih =>
      have hl : ∀ r ∈ chain4.arcList.map Arc.toSpec, (r.origin = "b" ∨ r.origin = "c") → r.dest = "b" ∨ r.dest = "c" := by
        decide +kernel
      exact hl r hr ih
  intro h
  rcases hx with rfl | rfl <;> rcases key _ h with e | e <;> revert e <;> decide

end Ex

example := C76_init Ex.chain4_reachable rfl (b := "b") (v := 1) (c := "a") (Ex.run_eq (by decide +kernel))
  (Ex.run_eq (by decide +kernel)) (Ex.run_eq (by decide +kernel)) (by decide +kernel) (Ex.chain4_free (.inl rfl))
example := C76_relation Ex.chain4_reachable rfl (o := "c") (d := "b") (w := -1) (c := "d") (Ex.run_eq (by decide +kernel))
  (Ex.run_eq (by decide +kernel)) (Ex.run_eq (by decide +kernel)) (by decide +kernel) (Ex.chain4_free (.inr rfl))

namespace Ex

/-- The same map in an object that does not stop at stability. -/
def free0 : FCM ℚ := made (FCM.new (maxIt := 8) (extraSteps := 2) (stabilize := false) (activation := "saturation"))
def free4 : FCM ℚ := runOps chainOps free0
theorem free4_reachable : Reachable free4 :=
  reachable_made chainOps (show FCM.new (maxIt := 8) (extraSteps := 2) (stabilize := false) (activation := "saturation") =
    .ok free0 from rfl)
theorem free4_free : ¬ Influences free4.net "b" "a" := by
  have e' : free4.arcList = chain4.arcList := by decide +kernel
  have e : free4.net.rels = chain4.net.rels := congrArg (List.map Arc.toSpec) e'
  have key : ∀ y, Influences free4.net "b" y → Influences chain4.net "b" y := by
    intro y hy
    induction hy with
    | self => exact .self
    | along r hr _ ih => exact .along r (e ▸ hr) ih
  exact fun h => chain4_free (.inl rfl) (key _ h)

end Ex

/-- Starting b elsewhere leaves the whole trajectory and the final value of a as they are. -/
example :=
  (C76_init Ex.free4_reachable rfl (b := "b") (v := 1) (c := "a") (Ex.run_eq (by decide +kernel))
  (Ex.run_eq (by decide +kernel)) (Ex.run_eq (by decide +kernel)) (by decide +kernel) Ex.free4_free).2 rfl

/-- The restriction to common steps is needed: the stability test looks at all concepts, so a change elsewhere can
lengthen a run, and with it the recorded trajectory and the final value of an unaffected concept. -/
theorem C76_length_differs : ∃ m k : FCM ℚ, Reachable m ∧ m.debug = true ∧
    FCM.initConcept "b" 1 true m = (.ok (), k) ∧ ¬ Influences m.net "b" "a" ∧
    (FCM.runInference true m).1 = .ok () ∧ (FCM.runInference true k).1 = .ok () ∧
    (FCM.runInference true m).2.getConceptValue "a" ≠ (FCM.runInference true k).2.getConceptValue "a" :=
  ⟨Ex.chain4, (FCM.initConcept "b" 1 true Ex.chain4).2, Ex.chain4_reachable, rfl, Ex.run_eq (by decide +kernel),
    Ex.chain4_free (.inl rfl), by decide +kernel, by decide +kernel, by decide +kernel⟩

end PyFCM
