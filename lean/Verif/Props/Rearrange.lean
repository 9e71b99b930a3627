import Verif.Lemmas.Rearrange
import Verif.Props.Opposite
import Verif.Props.VecOrder
/-
In which order building calls can be made.
-/
namespace PyFCM
open Arith Spec

set_option linter.unusedSectionVars false

variable {α : Type} [Arith α]

/-! ### Specification -/

/-- The concept a call is about. -/
def Spec.about : Op α → Option String
  | .addConcept c _ => some c
  | .setConceptProperties c _ => some c
  | .initConcept c _ _ => some c
  | _ => none

/-- The setting a call changes. -/
def Spec.knob : Op α → Option String
  | .assignMaxIter _ => some "max_iter"
  | .assignStop _ => some "flag_stop_at_stabilize"
  | .assignStabilityDiff _ => some "stability_diff"
  | .assignDebug _ => some "debug"
  | .setMapDecisionFunction _ => some "decision function"
  | _ => none

/-- Calls whose order does not matter. -/
inductive Spec.Independent : Op α → Op α → Prop
  /-- calls about different concepts -/
  | concepts {p q : Op α} {c d : String} (hp : about p = some c) (hq : about q = some d) (h : c ≠ d) : Independent p q
  /-- two relations -/
  | relations (o d o' d' : String) (w w' : α) : Independent (.addRelation o d w) (.addRelation o' d' w')
  /-- a relation and a concept that is not one of its ends -/
  | apart (a : ConceptArgs α) {c o d : String} (w : α) (ho : c ≠ o) (hd : c ≠ d) : Independent (.addConcept c a) (.addRelation o d w)
  /-- a relation and the properties of any concept -/
  | properties (c : String) (a : ConceptArgs α) (o d : String) (w : α) : Independent (.setConceptProperties c a) (.addRelation o d w)
  /-- a relation and the initial value of any concept -/
  | start (c : String) (v : α) (req : Bool) (o d : String) (w : α) : Independent (.initConcept c v req) (.addRelation o d w)
  /-- a setting and a call about a concept -/
  | settingConcept {p q : Op α} {k c : String} (hp : about p = some c) (hq : knob q = some k) : Independent p q
  /-- a setting and a relation -/
  | settingRelation (o d : String) (w : α) {q : Op α} {k : String} (hq : knob q = some k) : Independent (.addRelation o d w) q
  /-- different settings -/
  | settings {p q : Op α} {k l : String} (hp : knob p = some k) (hq : knob q = some l) (h : k ≠ l) : Independent p q
  | symm {p q : Op α} (h : Independent p q) : Independent q p

/-- One sequence of calls is obtained from the other by exchanging neighbouring independent calls. -/
inductive Spec.Rearranged : List (Op α) → List (Op α) → Prop
  | refl (l : List (Op α)) : Rearranged l l
  | swap (l r : List (Op α)) {p q : Op α} (h : Independent p q) : Rearranged (l ++ p :: q :: r) (l ++ q :: p :: r)
  | trans {l l' l'' : List (Op α)} (h : Rearranged l l') (h' : Rearranged l' l'') : Rearranged l l''

/-- The calls with their outcomes, exceptions being caught by the caller. -/
def outcomes : List (Op α) → FCM α → List (Op α × Except Err Unit)
  | [], _ => []
  | op :: ops, m => (op, (op.run m).1) :: outcomes ops (op.run m).2

/-! ### Proof -/

/-- What the three kinds of calls do. -/
theorem act_about {p : Op α} {c : String} (h : about p = some c) : p.building = true ∧ ∃ f, p.act = localAct c f ∧
    ∀ s t : FCM α, t.default = s.default → t.memInfluence = s.memInfluence → t.mapFn = s.mapFn → ∀ n, f t n = f s n := by
  cases p <;> simp only [about, Option.some.injEq] at h <;> try cases h
  case addConcept a => exact ⟨rfl, _, rfl, fun s k h1 h2 h3 n => by unfold addLocal; rw [h1]⟩
  case setConceptProperties a => exact ⟨rfl, _, rfl, fun s k h1 h2 h3 n => by unfold propLocal; rw [h2, h3]⟩
  case initConcept v req => exact ⟨rfl, _, rfl, fun s k h1 h2 h3 n => rfl⟩

theorem act_knob {q : Op α} {k : String} (h : knob q = some k) : q.building = true ∧ ∃ r f, q.act = settingAct r f ∧
    ∀ s : FCM α, (f s).default = s.default ∧ (f s).memInfluence = s.memInfluence ∧ (f s).mapFn = s.mapFn := by
  cases q <;> simp only [knob] at h <;> try cases h
  case assignMaxIter n => exact ⟨rfl, .ok (), fun s => { s with maxIter := n }, rfl, fun s => ⟨rfl, rfl, rfl⟩⟩
  case assignStop n => exact ⟨rfl, .ok (), fun s => { s with stopAtStabilize := n }, rfl, fun s => ⟨rfl, rfl, rfl⟩⟩
  case assignStabilityDiff n => exact ⟨rfl, .ok (), fun s => { s with stabilityDiff := n }, rfl, fun s => ⟨rfl, rfl, rfl⟩⟩
  case assignDebug n => exact ⟨rfl, .ok (), fun s => { s with debug := n }, rfl, fun s => ⟨rfl, rfl, rfl⟩⟩
  case setMapDecisionFunction f =>
    refine ⟨rfl, _, _, rfl, fun s => ?_⟩
    unfold decisionSet
    cases Decision.getByName f <;> exact ⟨rfl, rfl, rfl⟩

theorem commute_settings {p q : Op α} {k l : String} (hp : knob p = some k) (hq : knob q = some l) (h : k ≠ l) :
    Commute2 p.act q.act := by
  cases p <;> simp only [knob] at hp <;> (try cases hp) <;> cases q <;> simp only [knob] at hq <;> (try cases hq) <;>
    first
    | exact absurd rfl h
    | exact setting_setting fun s => rfl
    | (refine setting_setting fun s => ?_
       unfold decisionSet
       cases Decision.getByName _ <;> rfl)

theorem Spec.Independent.building {p q : Op α} (h : Independent p q) : p.building = true ∧ q.building = true := by
  induction h with
  | concepts hp hq _ => exact ⟨(act_about hp).1, (act_about hq).1⟩
  | relations => exact ⟨rfl, rfl⟩
  | apart => exact ⟨rfl, rfl⟩
  | properties => exact ⟨rfl, rfl⟩
  | start => exact ⟨rfl, rfl⟩
  | settingConcept hp hq => exact ⟨(act_about hp).1, (act_knob hq).1⟩
  | settingRelation _ _ _ hq => exact ⟨rfl, (act_knob hq).1⟩
  | settings hp hq _ => exact ⟨(act_knob hp).1, (act_knob hq).1⟩
  | symm _ ih => exact ih.symm

theorem independent_commute [Exact α] {p q : Op α} (h : Independent p q) : Commute2 p.act q.act := by
  induction h with
  | concepts hp hq h =>
    obtain ⟨-, f, e, -⟩ := act_about hp
    obtain ⟨-, g, e', -⟩ := act_about hq
    rw [e, e']
    exact local_local h f g
  | relations o d o' d' w w' => exact rel_rel o d o' d' w w'
  | apart a w ho hd => exact local_rel_apart ho hd _ w
  | properties c a o d w => exact local_rel_framed (propLocal_framed c a) o d w
  | start c v req o d w => exact local_rel_framed (initLocal_framed c v req) o d w
  | settingConcept hp hq =>
    obtain ⟨-, f, e, hf⟩ := act_about hp
    obtain ⟨-, r, g, e', hg⟩ := act_knob hq
    rw [e, e']
    exact local_setting fun s n => hf s (g s) (hg s).1 (hg s).2.1 (hg s).2.2 n
  | settingRelation o d w hq =>
    obtain ⟨-, r, g, e', -⟩ := act_knob hq
    rw [e']
    exact rel_setting
  | settings hp hq h => exact commute_settings hp hq h
  | symm _ ih => exact ih.symm

theorem run_gist_fst {op : Op α} (hb : op.building = true) {m : FCM α} (hf : m.fitInclination = none) :
    (op.run m).1 = (op.act m.gist).1 := (congrArg Prod.fst (op.run_gist hb hf) :)
theorem run_gist_snd {op : Op α} (hb : op.building = true) {m : FCM α} (hf : m.fitInclination = none) :
    (op.run m).2.gist = (op.act m.gist).2 := (congrArg Prod.snd (op.run_gist hb hf) :)

/-- Maps with the same content answer the same calls in the same way. -/
theorem outcomes_congr : ∀ {ops : List (Op α)}, (∀ op ∈ ops, op.building = true) → ∀ {m n : FCM α}, m.fitInclination = none →
    n.fitInclination = none → n.gist = m.gist → outcomes ops n = outcomes ops m ∧ (runOps ops n).gist = (runOps ops m).gist
  | [], _, _, _, _, _, h => ⟨rfl, h⟩
  | op :: ops, hb, m, n, fm, fn, h => by
    have b := hb op (by simp)
    have h1 : (op.run n).1 = (op.run m).1 := by rw [run_gist_fst b fn, run_gist_fst b fm, h]
    have h2 : (op.run n).2.gist = (op.run m).2.gist := by rw [run_gist_snd b fn, run_gist_snd b fm, h]
    obtain ⟨i1, i2⟩ := outcomes_congr (ops := ops) (fun q hq => hb q (by simp [hq])) (op.building_fit b fm) (op.building_fit b fn) h2
    refine ⟨?_, i2⟩
    show (op, (op.run n).1) :: _ = (op, (op.run m).1) :: _
    rw [h1, i1]

theorem outcomes_append : ∀ (l r : List (Op α)) (m : FCM α), outcomes (l ++ r) m = outcomes l m ++ outcomes r (runOps l m)
  | [], _, _ => rfl
  | op :: l, r, m => by
    show _ :: outcomes (l ++ r) _ = _ :: (outcomes l _ ++ _)
    rw [outcomes_append]
    rfl

theorem runOps_append (l r : List (Op α)) (m : FCM α) : runOps (l ++ r) m = runOps r (runOps l m) := by
  unfold runOps; rw [List.foldl_append]

theorem runOps_fit : ∀ {ops : List (Op α)}, (∀ op ∈ ops, op.building = true) → ∀ {m : FCM α}, m.fitInclination = none →
    (runOps ops m).fitInclination = none
  | [], _, _, h => h
  | op :: ops, hb, m, h => runOps_fit (ops := ops) (m := (op.run m).2) (fun q hq => hb q (by simp [hq])) (op.building_fit (hb op (by simp)) h)

theorem Spec.Rearranged.perm {l l' : List (Op α)} (h : Rearranged l l') : l.Perm l' := by
  induction h with
  | refl => exact .refl _
  | swap l r h => exact List.Perm.append_left l (.swap _ _ r)
  | trans _ _ i j => exact i.trans j

theorem rearranged_gist [Exact α] {l l' : List (Op α)} (h : Rearranged l l') (hb : ∀ op ∈ l, op.building = true) {m : FCM α}
    (hf : m.fitInclination = none) : (outcomes l' m).Perm (outcomes l m) ∧ (runOps l' m).gist = (runOps l m).gist := by
  induction h with
  | refl => exact ⟨.refl _, rfl⟩
  | swap l r h =>
    rename_i p q
    have bl : ∀ op ∈ l, op.building = true := fun op ho => hb op (by simp [ho])
    have br : ∀ op ∈ r, op.building = true := fun op ho => hb op (by simp [ho])
    obtain ⟨bp, bq⟩ := h.building
    have f1 : (runOps l m).fitInclination = none := runOps_fit bl hf
    generalize hk : runOps l m = k at f1
    have fp := p.building_fit bp f1
    have fq := q.building_fit bq f1
    obtain ⟨c1, c2, c3⟩ := independent_commute h k.gist
    have e1 : (q.run (p.run k).2).1 = (q.run k).1 := by
      rw [run_gist_fst bq fp, run_gist_snd bp f1, c1, run_gist_fst bq f1]
    have e2 : (p.run (q.run k).2).1 = (p.run k).1 := by
      rw [run_gist_fst bp fq, run_gist_snd bq f1, c2, run_gist_fst bp f1]
    have e3 : (p.run (q.run k).2).2.gist = (q.run (p.run k).2).2.gist := by
      rw [run_gist_snd bp fq, run_gist_snd bq f1, run_gist_snd bq fp, run_gist_snd bp f1, c3]
    obtain ⟨o1, o2⟩ := outcomes_congr br (q.building_fit bq fp) (p.building_fit bp fq) e3
    refine ⟨?_, ?_⟩
    · rw [outcomes_append, outcomes_append, hk]
      refine List.Perm.append_left _ ?_
      show List.Perm ((q, (q.run k).1) :: (p, (p.run (q.run k).2).1) :: outcomes r (p.run (q.run k).2).2)
        ((p, (p.run k).1) :: (q, (q.run (p.run k).2).1) :: outcomes r (q.run (p.run k).2).2)
      rw [e1, e2, o1]
      exact .swap _ _ _
    · rw [runOps_append, runOps_append, hk]
      exact o2
  | trans h1 _ i j =>
    obtain ⟨a1, a2⟩ := i hb
    obtain ⟨b1, b2⟩ := j fun op ho => hb op (h1.perm.mem_iff.2 ho)
    exact ⟨b1.trans a1, b2.trans a2⟩

/-! ### From the content to the map -/

theorem gist_mirror {m n : FCM α} (h : n.gist = m.gist) : Mirror m n ∧ Recs m n := by
  have hn : ∀ c, (n.topology.get? c).map Node.gist = (m.topology.get? c).map Node.gist := fun c => congrFun (congrArg Gist.node h) c
  refine ⟨⟨congrArg Gist.settings h, Multiset.coe_eq_coe.1 (congrArg Gist.rels h), fun c => ?_⟩,
    fun c => congrFun (congrArg Gist.record h) c⟩
  have := congrArg (Option.map fun p : Node α × Multiset (String × α) => p.1.plain) (hn c)
  rw [Option.map_map, Option.map_map] at this
  exact this

/-- C113: what the calls return or raise does not depend on the order, nor does what the map then holds. -/
theorem C113_outcomes [Exact α] {l l' : List (Op α)} (h : Rearranged l l') (hb : ∀ op ∈ l, op.building = true) {m : FCM α}
    (hf : m.fitInclination = none) :
    (outcomes l' m).Perm (outcomes l m) ∧ (runOps l' m).bare = (runOps l m).bare ∧
    (runOps l' m).arcList.Perm (runOps l m).arcList ∧
    ∀ c, (runOps l' m).traj c = (runOps l m).traj c ∧ (runOps l' m).getConceptValue c = (runOps l m).getConceptValue c ∧
      ((runOps l' m).outgoingRelations c).Perm ((runOps l m).outgoingRelations c) ∧
      ((runOps l' m).topology.get? c).map (fun n => { n with arcs := [] }) =
        ((runOps l m).topology.get? c).map (fun n => { n with arcs := [] }) := by
  obtain ⟨h1, h2⟩ := rearranged_gist h hb hf
  refine ⟨h1, congrArg Gist.settings h2, Multiset.coe_eq_coe.1 (congrArg Gist.rels h2), fun c => ?_⟩
  have hn : ((runOps l' m).topology.get? c).map Node.gist = ((runOps l m).topology.get? c).map Node.gist :=
    congrFun (congrArg Gist.node h2) c
  have hx : (runOps l' m).execution.get? c = (runOps l m).execution.get? c := congrFun (congrArg Gist.record h2) c
  refine ⟨by unfold FCM.traj; rw [hx], ?_, ?_, ?_⟩
  · have := congrArg (Option.map fun p : Node α × Multiset (String × α) => p.1.value) hn
    rw [Option.map_map, Option.map_map] at this
    exact this
  · unfold FCM.outgoingRelations
    cases h3 : (runOps l' m).topology.get? c with
    | none =>
      rw [h3] at hn
      cases h4 : (runOps l m).topology.get? c with
      | none => exact .refl _
      | some b => rw [h4] at hn; cases hn
    | some a =>
      rw [h3] at hn
      cases h4 : (runOps l m).topology.get? c with
      | none => rw [h4] at hn; cases hn
      | some b =>
        rw [h4] at hn
        exact Multiset.coe_eq_coe.1 (congrArg Prod.snd (Option.some.inj hn) :)
  · have := congrArg (Option.map Prod.fst) hn
    rw [Option.map_map, Option.map_map] at this
    exact this

theorem clean_runOps : ∀ {l : List (Op α)} {m : FCM α}, CleanReachable m → (∀ p ∈ outcomes l m, p.2 = .ok ()) →
    CleanReachable (runOps l m)
  | [], _, h, _ => h
  | op :: l, m, h, ho => by
    have h1 : (op.run m).1 = .ok () := ho (op, (op.run m).1) (by simp [outcomes])
    exact clean_runOps (l := l) (.step op h (by rw [← h1])) fun p hp => ho p (by
      show p ∈ _ :: _
      exact List.mem_cons_of_mem _ hp)

/-- C113, iterative engine: a run returns for one order exactly if it does for the other, with the same trajectories and
final values. -/
theorem C113_iterative [Exact α] {l l' : List (Op α)} (h : Rearranged l l') (hb : ∀ op ∈ l, op.building = true) {m m1 : FCM α}
    (hm : CleanReachable m) (hf : m.fitInclination = none) (ho : ∀ p ∈ outcomes l m, p.2 = .ok ())
    (hd : (runOps l m).debug = true) (r : FCM.runInference true (runOps l m) = (.ok (), m1)) :
    ∃ m2, FCM.runInference true (runOps l' m) = (.ok (), m2) ∧
      ∀ c, m2.traj c = m1.traj c ∧ m2.getConceptValue c = m1.getConceptValue c := by
  obtain ⟨h1, h2⟩ := rearranged_gist h hb hf
  obtain ⟨mi, re⟩ := gist_mirror h2
  refine C111_depends (clean_runOps hm ho) (clean_runOps hm fun p hp => ho p (h1.mem_iff.1 hp)) hd ?_ (mi.akin re) r
  rw [← hd]
  exact (congrArg FCM.debug mi.settings :)

/-- C113, vectorised engine, without parallel relations. -/
theorem C113_vectorised {l l' : List (Op ℝ)} (h : Rearranged l l') (hb : ∀ op ∈ l, op.building = true) {m m1 : FCM ℝ}
    (hm : CleanReachable m) (hf : m.fitInclination = none) (ho : ∀ p ∈ outcomes l m, p.2 = .ok ())
    (hv : Vectorised (runOps l m)) (hp : NoParallel (runOps l m).arcList)
    (r : FCM.runInference true (runOps l m) = (.ok (), m1)) :
    ∃ m2, FCM.runInference true (runOps l' m) = (.ok (), m2) ∧
      ∀ c, m2.traj c = m1.traj c ∧ m2.getConceptValue c = m1.getConceptValue c := by
  obtain ⟨h1, h2⟩ := rearranged_gist h hb hf
  obtain ⟨mi, re⟩ := gist_mirror h2
  have cn : CleanReachable (runOps l' m) := clean_runOps hm fun p hp => ho p (h1.mem_iff.1 hp)
  generalize hk : runOps l m = k at *
  generalize hn : runOps l' m = n at *
  have hkn : KwArgs n := fun c b f hb hf => by
    obtain ⟨a, ha, e⟩ := mi.symm.get hb
    exact (hv.args c a f ha ((congrArg Node.fn e :).trans hf)).1.kw
  have hperm : n.topology.keys.Perm k.topology.keys :=
    (List.perm_ext_iff_of_nodup cn.clean.inv.tnd hv.clean.clean.inv.tnd).2 mi.keys
  have hne' : n.topology ≠ [] := fun e => hv.nonempty (by
    have := hperm.length_eq
    rw [e] at this
    exact List.eq_nil_of_length_eq_zero (by simpa [Dict.keys, eq_comm] using this))
  have hoff : n.debug = false := (congrArg FCM.debug mi.settings :).trans hv.off
  obtain ⟨z, z0, zo, zr⟩ := vec_orbit hv.clean.clean hv.args hv.start
  have z0' : ∀ c ∈ n.topology.keys, z 0 c = at' n.traj 0 c := by
    intro c hc
    rw [z0 c ((mi.keys c).1 hc)]
    unfold at' FCM.traj
    rw [re c]
  have zo' : Orbit n.net.vector n.topology.keys z := fun t c hc => by
    rw [mi.next_vector hp]; exact zo t c ((mi.keys c).1 hc)
  have hlev : Level n.topology.keys z n.stabilityDiff = Level k.topology.keys z k.stabilityDiff := by
    funext s
    unfold Level
    rw [show n.stabilityDiff = k.stabilityDiff from (congrArg FCM.stabilityDiff mi.settings :), total_perm (hperm.map (z s)),
      total_perm (hperm.map (z (s - 1)))]
  obtain ⟨m2, r2⟩ : ∃ m2, FCM.runInference true n = (.ok (), m2) := by
    have a := (C105_decides hv.clean hv.off hv.nonempty (fun c n f hn hf => (hv.args c n f hn hf).1.kw) z0 zo (not_two zr)).1
      (by rw [r])
    have b := (C105_decides cn hoff hne' hkn z0' zo' (fun t c hc => not_two zr t c ((mi.keys c).1 hc))).2 (by
        rw [hlev, show n.maxIter = k.maxIter from (congrArg FCM.maxIter mi.settings :),
          show n.extraSteps = k.extraSteps from (congrArg FCM.extraSteps mi.settings :),
          show n.decisionName = k.decisionName from (congrArg FCM.decisionName mi.settings :)]
        exact a)
    exact ⟨_, by rw [← b]⟩
  exact ⟨m2, r2, vec_akin mi re hp hv.clean.clean cn.clean hv.clean.reachable.coherent cn.reachable.coherent hv.off hv.nonempty
    hv.args hv.start r r2⟩

/-! ### Blocks of independent calls -/

theorem rearranged_around (l r : List (Op α)) {a b : List (Op α)} (h : Rearranged a b) : Rearranged (l ++ a ++ r) (l ++ b ++ r) := by
  induction h with
  | refl => exact .refl _
  | swap l' r' h =>
    have := Rearranged.swap (l ++ l') (r' ++ r) h
    simpa [List.append_assoc] using this
  | trans _ _ i j => exact i.trans j

theorem rearranged_append {a b c d : List (Op α)} (h : Rearranged a b) (h' : Rearranged c d) : Rearranged (a ++ c) (b ++ d) := by
  have h1 := rearranged_around [] c h
  have h2 := rearranged_around b [] h'
  simp only [List.nil_append, List.append_nil] at h1 h2
  exact h1.trans h2

/-- Calls that are independent of one another can be made in any order. -/
theorem C113_block {l l' : List (Op α)} (hp : l.Perm l') (h : l.Pairwise Independent) : Rearranged l l' := by
  induction hp with
  | nil => exact .refl _
  | cons x _ ih =>
    have := rearranged_around [x] [] (ih (List.pairwise_cons.1 h).2)
    simpa using this
  | swap x y l =>
    exact .swap [] l ((List.pairwise_cons.1 h).1 x (by simp))
  | trans h1 _ i j => exact (i h).trans (j (pairwise_perm (fun _ _ h => h.symm) h1 h))

/-- Calls that are not independent: a relation to a concept that is added later is lost, without an exception. -/
theorem C113_early {o d : String} {w : α} {a : ConceptArgs α} {m m' : FCM α} (hf : m.fitInclination = none)
    (ho : o ∈ m.topology.keys) (hd : d ∉ m.topology.keys) (ha : FCM.addConcept d a m = (.ok (), m')) :
    outcomes [.addRelation o d w, .addConcept d a] m = [(.addRelation o d w, .ok ()), (.addConcept d a, .ok ())] ∧
    (runOps [.addRelation o d w, .addConcept d a] m).arcList = m.arcList ∧
    (runOps [.addConcept d a, .addRelation o d w] m).arcList = m.arcList ++ [⟨d, w, o⟩] := by
  have hne : m.topology.has d = false := by
    cases h : m.topology.has d with
    | false => rfl
    | true => exact absurd ((Dict.has_iff _ _).1 h) hd
  have e1 : FCM.addRelation o d w m = (.ok (), { m with prepared := false }) := by
    unfold FCM.addRelation
    simp only [hne, Bool.false_and, Bool.false_eq_true, if_false]
  have ha' := ha
  unfold FCM.addConcept at ha
  have e2 : (FCM.addConcept d a { m with prepared := false }).1 = .ok () ∧
      (FCM.addConcept d a { m with prepared := false }).2.arcList = m.arcList := by
    unfold FCM.addConcept
    simp only at ha ⊢
    split at ha
    · cases ha
    · exact ⟨rfl, rfl⟩
  have e3 : m'.arcList = m.arcList ∧ m'.fitInclination = none ∧ m'.topology.has d = true ∧ m'.topology.has o = true := by
    simp only at ha
    split at ha
    · cases ha
    · have := (Prod.mk.inj ha).2
      subst this
      refine ⟨rfl, hf, ?_, ?_⟩
      · rw [Dict.has_iff, ← Dict.get?_isSome_iff]
        simp
      · rw [Dict.has_iff, ← Dict.get?_isSome_iff]
        rw [Dict.get?_set]
        split
        · rfl
        · exact (Dict.get?_isSome_iff _ _).2 ho
  refine ⟨?_, ?_, ?_⟩
  · show [(_, (FCM.addRelation o d w m).1), (_, (FCM.addConcept d a (FCM.addRelation o d w m).2).1)] = _
    rw [e1]
    dsimp only
    rw [e2.1]
  · show (FCM.addConcept d a (FCM.addRelation o d w m).2).2.arcList = _
    rw [e1]
    exact e2.2
  · show (FCM.addRelation o d w (FCM.addConcept d a m).2).2.arcList = _
    rw [ha']
    unfold FCM.addRelation
    simp only [e3.2.2.1, e3.2.2.2, Bool.and_self, if_true, e3.2.1, e3.1]

/-! ### Concrete cases -/

namespace Ex

noncomputable def firstOps : List (Op ℝ) :=
  [.addConcept "a" {}, .addConcept "b" { excitation := some "PAPAGEORGIUS", activation := some "sigmoid" },
   .addConcept "c" { activation := some "saturation" }]
noncomputable def thenOps (d : Bool) (x y u v : ℝ) : List (Op ℝ) :=
  [.addRelation "a" "b" u, .addRelation "b" "c" v, .initConcept "a" x true, .initConcept "b" y true, .assignDebug d]

theorem first_pairwise : firstOps.Pairwise Independent := by
  unfold firstOps
  simp only [List.pairwise_cons, List.mem_cons, List.not_mem_nil, or_false, forall_eq_or_imp, forall_eq,
    IsEmpty.forall_iff, implies_true, List.Pairwise.nil, and_true]
  refine ⟨⟨?_, ?_⟩, ?_⟩
  · exact .concepts rfl rfl (by decide)
  · exact .concepts rfl rfl (by decide)
  · exact .concepts rfl rfl (by decide)

theorem then_pairwise (d : Bool) (x y u v : ℝ) : (thenOps d x y u v).Pairwise Independent := by
  unfold thenOps
  simp only [List.pairwise_cons, List.mem_cons, List.not_mem_nil, or_false, forall_eq_or_imp, forall_eq,
    IsEmpty.forall_iff, implies_true, List.Pairwise.nil, and_true]
  refine ⟨⟨?_, ?_, ?_, ?_⟩, ⟨?_, ?_, ?_⟩, ⟨?_, ?_⟩, ?_⟩
  · exact .relations ..
  · exact (Independent.start ..).symm
  · exact (Independent.start ..).symm
  · exact .settingRelation _ _ _ rfl
  · exact (Independent.start ..).symm
  · exact (Independent.start ..).symm
  · exact .settingRelation _ _ _ rfl
  · exact .concepts rfl rfl (by decide)
  · exact .settingConcept rfl rfl
  · exact .settingConcept rfl rfl

/-- The map `pair` built in another order: the concepts from last to first, then the initial values before the relations. -/
noncomputable def otherOps (d : Bool) (x y u v : ℝ) : List (Op ℝ) := firstOps.reverse ++ (thenOps d x y u v).reverse

theorem other_rearranged (d : Bool) (x y u v : ℝ) : Rearranged (pairOps d x y u v) (otherOps d x y u v) :=
  rearranged_append (a := firstOps) (c := thenOps d x y u v) (C113_block (List.reverse_perm _).symm first_pairwise)
    (C113_block (List.reverse_perm _).symm (then_pairwise d x y u v))

theorem pairOps_building (d : Bool) (x y u v : ℝ) : ∀ op ∈ pairOps d x y u v, op.building = true := by
  intro op h
  simp only [pairOps, List.mem_cons, List.not_mem_nil, or_false] at h
  rcases h with rfl | rfl | rfl | rfl | rfl | rfl | rfl | rfl <;> rfl

theorem pairOps_ok (d : Bool) (x y u v : ℝ) : ∀ p ∈ outcomes (pairOps d x y u v) plain0, p.2 = .ok () := by
  have : outcomes (pairOps d x y u v) plain0 = (pairOps d x y u v).map fun op => (op, .ok ()) := rfl
  intro p hp
  rw [this] at hp
  obtain ⟨q, -, rfl⟩ := List.mem_map.1 hp
  rfl

/-- Both orders run, with the same result. -/
example (x y u v : ℝ) : ∃ m1 m2, FCM.runInference true (runOps (pairOps true x y u v) plain0) = (.ok (), m1) ∧
    FCM.runInference true (runOps (otherOps true x y u v) plain0) = (.ok (), m2) ∧
    ∀ c, m2.traj c = m1.traj c ∧ m2.getConceptValue c = m1.getConceptValue c := by
  obtain ⟨m1, r1⟩ := pair_run x y u v
  obtain ⟨m2, r2, h⟩ := C113_iterative (other_rearranged true x y u v) (pairOps_building true x y u v) (.new plain0_new) rfl
    (pairOps_ok true x y u v) rfl r1
  exact ⟨m1, m2, r1, r2, h⟩

/-- The vectorised engine, whenever it returns. -/
example {x y : ℝ} (hx : -1 ≤ x ∧ x ≤ 1) (hy : -1 ≤ y ∧ y ≤ 1) (u v : ℝ) {m1 : FCM ℝ}
    (r1 : FCM.runInference true (runOps (pairOps false x y u v) plain0) = (.ok (), m1)) :
    ∃ m2, FCM.runInference true (runOps (otherOps false x y u v) plain0) = (.ok (), m2) ∧
    ∀ c, m2.traj c = m1.traj c ∧ m2.getConceptValue c = m1.getConceptValue c :=
  C113_vectorised (other_rearranged false x y u v) (pairOps_building false x y u v) (.new plain0_new) rfl (pairOps_ok false x y u v) (pair_vec hx hy u v)
    (by
      show NoParallel (pair false x y u v).arcList
      rw [pair_arcs]
      refine List.pairwise_cons.2 ⟨?_, List.pairwise_singleton _ _⟩
      rintro b hb ⟨h1, -⟩
      simp only [List.mem_singleton] at hb
      subst hb
      exact absurd h1 (show ¬ "a" = "b" by decide)) r1

/-- A relation that comes too early. -/
example (x y u v : ℝ) : (runOps [.addRelation "a" "d" 1, .addConcept "d" {}] (pair true x y u v)).arcList = (pair true x y u v).arcList :=
  (C113_early (a := {}) (w := 1) (m := pair true x y u v) rfl (by rw [pair_keys]; simp) (by rw [pair_keys]; decide) rfl).2.1

end Ex

end PyFCM
