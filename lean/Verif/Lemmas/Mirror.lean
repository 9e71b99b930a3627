import Verif.Props.Predicts
import Verif.Props.Dynamics
/-
Maps that have the same concepts and relations in another order: clearing, initialising and running them, and reading
labels off them.
-/
namespace PyFCM
open Arith Spec

set_option linter.unusedSectionVars false

variable {α : Type} [Arith α]

/-- A node without its values and without the list of its relations. -/
def Node.plain (n : Node α) : Node α := { n.static with arcs := [] }

/-- The maps have the same settings, concepts and relations, in any order. -/
structure Mirror (m n : FCM α) : Prop where
  settings : n.bare = m.bare
  arcs : n.arcList.Perm m.arcList
  node : ∀ c, (n.topology.get? c).map Node.plain = (m.topology.get? c).map Node.plain

/-- The maps have recorded the same values. -/
def Recs (m n : FCM α) : Prop := ∀ c, n.execution.get? c = m.execution.get? c

theorem plain_view {m m' : FCM α} (h : m'.view = m.view) (c : String) :
    (m'.topology.get? c).map Node.plain = (m.topology.get? c).map Node.plain := by
  have := view_get h c
  cases h1 : m'.topology.get? c with
  | none =>
    rw [h1] at this
    cases h2 : m.topology.get? c with
    | none => rfl
    | some b => rw [h2] at this; cases this
  | some a =>
    rw [h1] at this
    cases h2 : m.topology.get? c with
    | none => rw [h2] at this; cases this
    | some b =>
      rw [h2] at this
      have e : a.static = b.static := Option.some.inj this
      show some _ = some _
      unfold Node.plain
      rw [e]

theorem Mirror.symm {m n : FCM α} (h : Mirror m n) : Mirror n m :=
  ⟨h.settings.symm, h.arcs.symm, fun c => (h.node c).symm⟩

theorem Mirror.of {m n m' n' : FCM α} (h : Mirror m n) (hm : m'.view = m.view) (bm : m'.bare = m.bare)
    (hn : n'.view = n.view) (bn : n'.bare = n.bare) : Mirror m' n' := by
  refine ⟨by rw [bn, bm, h.settings], ?_, fun c => ?_⟩
  · rw [show n'.arcList = n.arcList from (Prod.mk.inj hn).2, show m'.arcList = m.arcList from (Prod.mk.inj hm).2]
    exact h.arcs
  · rw [plain_view hn, plain_view hm, h.node]

theorem Mirror.keys {m n : FCM α} (h : Mirror m n) (c : String) : c ∈ n.topology.keys ↔ c ∈ m.topology.keys := by
  have key : ∀ {m n : FCM α}, Mirror m n → c ∈ n.topology.keys → c ∈ m.topology.keys := by
    intro m n h hc
    obtain ⟨b, hb⟩ := Dict.exists_get?_of_mem hc
    have := h.node c
    rw [hb] at this
    cases h2 : m.topology.get? c with
    | none => rw [h2] at this; cases this
    | some a => exact Dict.mem_keys_of_get? h2
  exact ⟨key h, key h.symm⟩

theorem Mirror.get {m n : FCM α} (h : Mirror m n) {c : String} {a : Node α} (ha : m.topology.get? c = some a) :
    ∃ b, n.topology.get? c = some b ∧ b.plain = a.plain := by
  have := h.node c
  rw [ha] at this
  cases h2 : n.topology.get? c with
  | none => rw [h2] at this; cases this
  | some b => rw [h2] at this; exact ⟨b, rfl, Option.some.inj this⟩

theorem Mirror.get_none {m n : FCM α} (h : Mirror m n) {c : String} (ha : m.topology.get? c = none) :
    n.topology.get? c = none := by
  have := h.node c
  rw [ha] at this
  cases h2 : n.topology.get? c with
  | none => rfl
  | some b => rw [h2] at this; cases this

theorem Mirror.next [Exact α] {m n : FCM α} (h : Mirror m n) (A : String → α) (c : String) :
    next n.net A c = next m.net A c := by
  have hcon : n.net.concept = m.net.concept := by
    funext e
    show (n.topology.get? e).bind _ = (m.topology.get? e).bind _
    cases ha : m.topology.get? e with
    | none => rw [h.get_none ha]
    | some a =>
      obtain ⟨b, hb, e⟩ := h.get ha
      rw [hb]
      show b.plain.toSpec = a.plain.toSpec
      rw [e]
  have hrel : n.net.rels.Perm m.net.rels := h.arcs.map _
  have hin : total (inputs n.net A c) = total (inputs m.net A c) := by
    apply total_perm
    unfold inputs
    have : along n.net A c = along m.net A c := by
      funext r; unfold along; rw [hcon]
    rw [this]
    exact hrel.filterMap _
  unfold Spec.next
  rw [hcon, hin]

theorem Mirror.akin [Exact α] {m n : FCM α} (h : Mirror m n) (hr : Recs m n) : Akin m n := by
  refine ⟨h.keys, (congrArg FCM.maxIter h.settings :), (congrArg FCM.stopAtStabilize h.settings :),
    (congrArg FCM.stabilityDiff h.settings :), (congrArg FCM.extraSteps h.settings :), (congrArg FCM.decisionFn h.settings :), ?_,
    fun A c _ => h.next A c⟩
  intro c _
  unfold at' FCM.traj
  rw [hr c]

/-! ### Two runs side by side -/

/-- Both operations raise the same error or return the same value, and leave maps that mirror each other. -/
def Side {β : Type} (x y : PyM (FCM α) β) : Prop :=
  ∀ m n, Mirror m n → Recs m n → (x m).1 = (y n).1 ∧ Mirror (x m).2 (y n).2 ∧ Recs (x m).2 (y n).2

theorem Side.pure {β : Type} (b : β) : Side (Pure.pure b : PyM (FCM α) β) (Pure.pure b) := fun _ _ h r => ⟨rfl, h, r⟩

theorem Side.lift {β : Type} (b : Except Err β) : Side (PyM.lift b : PyM (FCM α) β) (PyM.lift b) :=
  fun _ _ h r => ⟨rfl, h, r⟩

theorem Side.bind {β γ : Type} {x y : PyM (FCM α) β} {f g : β → PyM (FCM α) γ} (hx : Side x y) (hf : ∀ b, Side (f b) (g b)) :
    Side (x >>= f) (y >>= g) := by
  intro m n h r
  obtain ⟨e, h1, r1⟩ := hx m n h r
  rw [PyM.run_bind, PyM.run_bind]
  rcases hm : x m with ⟨er | b, m1⟩ <;> rcases hn : y n with ⟨er' | b', n1⟩ <;> rw [hm, hn] at e h1 r1 <;> cases e
  · exact ⟨rfl, h1, r1⟩
  · exact hf b m1 n1 h1 r1

theorem Side.forEach {ι : Type} {f g : ι → PyM (FCM α) Unit} : ∀ xs : List ι, (∀ i ∈ xs, Side (f i) (g i)) →
    Side (PyM.forEach xs f) (PyM.forEach xs g)
  | [], _ => Side.pure ()
  | i :: xs, hf => by
    intro m n h r
    obtain ⟨e, h1, r1⟩ := hf i (by simp) m n h r
    simp only [PyM.forEach]
    rcases hm : f i m with ⟨er | b, m1⟩ <;> rcases hn : g i n with ⟨er' | b', n1⟩ <;> rw [hm, hn] at e h1 r1 <;> cases e
    · exact ⟨rfl, h1, r1⟩
    · exact Side.forEach xs (fun i hi => hf i (by simp [hi])) m1 n1 h1 r1

theorem recs_set {m n : FCM α} (h : Recs m n) (c : String) (v : List α) (t t' : Dict (Node α)) :
    Recs { m with topology := t, execution := m.execution.set c v } { n with topology := t', execution := n.execution.set c v } := by
  intro d
  show Dict.get? (n.execution.set c v) d = Dict.get? (m.execution.set c v) d
  rw [Dict.get?_set, Dict.get?_set, h d]

theorem initConcept_side (c : String) (v : α) (b : Bool) : Side (FCM.initConcept c v b) (FCM.initConcept c v b) := by
  intro m n h r
  have hm : Mirror (FCM.initConcept c v b m).2 (FCM.initConcept c v b n).2 :=
    h.of (initConcept_quiet m c v b m (.refl m)).view (initConcept_bare m c v b m rfl)
      (initConcept_quiet n c v b n (.refl n)).view (initConcept_bare n c v b n rfl)
  suffices hs : (FCM.initConcept c v b m).1 = (FCM.initConcept c v b n).1 ∧
      Recs (FCM.initConcept c v b m).2 (FCM.initConcept c v b n).2 from ⟨hs.1, hm, hs.2⟩
  clear hm
  unfold FCM.initConcept
  cases ha : m.topology.get? c with
  | none =>
    rw [h.get_none ha]
    dsimp only
    split <;> exact ⟨rfl, r⟩
  | some a =>
    obtain ⟨k, hk, e⟩ := h.get ha
    rw [hk]
    have e1 : k.fn = a.fn := (congrArg Node.fn e :)
    have e2 : k.fuzzyAct = a.fuzzyAct := (congrArg Node.fuzzyAct e :)
    dsimp only
    rw [e1, e2]
    cases a.fn with
    | none => exact ⟨rfl, r⟩
    | some f =>
      dsimp only
      split
      · cases a.fuzzyAct with
        | none => exact ⟨rfl, r⟩
        | some fa =>
          dsimp only
          split
          · exact ⟨rfl, r⟩
          · exact ⟨rfl, recs_set r _ _ _ _⟩
      · exact ⟨rfl, recs_set r _ _ _ _⟩

theorem initAll_side (v : α) : ∀ cs : List String, Side (initAll v cs) (initAll v cs)
  | [] => Side.pure ()
  | c :: cs => by
    unfold initAll
    exact (initConcept_side c v false).bind fun _ => initAll_side v cs

theorem initByFeature_side (cfg : GenConf α) (x : Ext α) {fs gs : Dict (Feature α)} (he : ∀ f, gs.get? f = fs.get? f)
    (feat : String) (v : Cell α) : Side (initByFeature cfg x fs feat v) (initByFeature cfg x gs feat v) := by
  have hb : Side (initByFeatureBody cfg x fs feat v) (initByFeatureBody cfg x gs feat v) := by
    unfold initByFeatureBody
    rw [he]
    refine (Side.lift _).bind fun F => ?_
    split
    · exact (Side.lift _).bind fun _ => initAll_side _ _
    · exact (Side.lift _).bind fun _ => initConcept_side _ _ _
  intro m n h r
  obtain ⟨e, h1, r1⟩ := hb m n h r
  unfold initByFeature
  rcases hm : initByFeatureBody cfg x fs feat v m with ⟨er | ⟨⟩, m1⟩ <;>
    rcases hn : initByFeatureBody cfg x gs feat v n with ⟨er' | ⟨⟩, n1⟩ <;> rw [hm, hn] at e h1 r1 <;> cases e <;>
    exact ⟨rfl, h1, r1⟩

theorem initRow_side (cfg : GenConf α) (x : Ext α) {fs gs : Dict (Feature α)} (he : ∀ f, gs.get? f = fs.get? f)
    (row : List (String × Cell α)) : Side (initRow cfg x fs row) (initRow cfg x gs row) :=
  Side.forEach row fun p _ => initByFeature_side cfg x he p.1 p.2

theorem clear_mirror {m n m1 n1 : FCM α} (h : Mirror m n) (im : Inv m) (inn : Inv n)
    (hm : FCM.clearExecution m = (.ok (), m1)) (hn : FCM.clearExecution n = (.ok (), n1)) : Mirror m1 n1 ∧ Recs m1 n1 := by
  have qm : Quiet m m1 := by have := clear_quiet m; rwa [hm] at this
  have qn : Quiet n n1 := by have := clear_quiet n; rwa [hn] at this
  have bm : m1.bare = m.bare := by have := clear_bare m m rfl; rwa [hm] at this
  have bn : n1.bare = n.bare := by have := clear_bare n n rfl; rwa [hn] at this
  refine ⟨h.of qm.view bm qn.view bn, ?_⟩
  have key : ∀ {m m1 : FCM α}, Inv m → FCM.clearExecution m = (.ok (), m1) → ∀ c,
      m1.execution.get? c = if c ∈ m.topology.keys then some [lit 0] else none := by
    intro m m1 im hm c
    have i1 : Inv m1 := by have := Op.clearExecution.pres m im; simp only [Op.run] at this; rwa [hm] at this
    obtain ⟨-, kt, -, -, hin⟩ := forEach_touch ClearRel clearOne_touch im.tnd hm
    split
    · rename_i hc
      obtain ⟨a, ha⟩ := Dict.exists_get?_of_mem hc
      have := hin c hc
      rw [ha] at this
      exact this.2
    · rename_i hc
      rw [Dict.get?_eq_none_iff]
      exact fun hx => hc (by rw [← kt]; exact i1.sub c hx)
  intro c
  rw [key im hm, key inn hn]
  simp only [h.keys c]

/-! ### Reading the labels -/

/-- Is `c` a concept of feature `f`? -/
def belongs (cfg : GenConf α) (f c : String) : Bool :=
  match featureAndInfo cfg c with
  | .ok (g, _) => decide (g = f)
  | .error _ => false

/-- The values of the target concepts. -/
def targetValue (m : FCM α) (c : String) : Option (String × α) :=
  (m.topology.get? c).bind fun n => n.type.bind fun t =>
    if t = TYPE_DECISION ∨ t = TYPE_REGRESOR then some (c, n.value) else none

theorem finalStateLoop_target (m : FCM α) : ∀ (ks : List String) (st : Dict α),
    finalStateLoop m "target" [] ks = .ok st → st = ks.filterMap (targetValue m)
  | [], st, h => by
    unfold finalStateLoop at h
    cases h
    rfl
  | c :: ks, st, h => by
    unfold finalStateLoop at h
    dsimp only at h
    rw [if_neg (by simp)] at h
    obtain ⟨k, h3, h⟩ := exc_bind_ok h
    rw [if_neg (by decide), if_pos rfl] at h
    obtain ⟨t, h4, h⟩ := exc_bind_ok h
    obtain ⟨pick, h5, h⟩ := exc_bind_ok h
    obtain ⟨rest, h2, h⟩ := exc_bind_ok h
    have h3 := need_eq_ok.1 h3
    have h4 := need_eq_ok.1 h4
    have ih := finalStateLoop_target m ks rest h2
    cases h5
    cases h
    rw [List.filterMap_cons]
    have ht : targetValue m c = if t = TYPE_DECISION ∨ t = TYPE_REGRESOR then some (c, k.value) else none := by
      unfold targetValue
      rw [h3]
      simp only [Option.bind_some, h4]
    rw [ht, ih]
    by_cases hc : t = TYPE_DECISION ∨ t = TYPE_REGRESOR
    · rw [if_pos hc, if_pos hc]
    · rw [if_neg hc, if_neg hc]

theorem picks_target {cfg : GenConf α} {fs : Dict (Feature α)} {f : String} (m : FCM α) : ∀ ks : List String,
    picks cfg fs f (ks.filterMap (targetValue m)) = picks cfg fs f ((ks.filter (belongs cfg f)).filterMap (targetValue m))
  | [] => rfl
  | c :: ks => by
    have ih := picks_target (cfg := cfg) (fs := fs) (f := f) m ks
    unfold picks at ih ⊢
    rw [List.filter_cons]
    by_cases hb : belongs cfg f c = true
    · rw [if_pos hb, List.filterMap_cons, List.filterMap_cons (l := ks.filter _)]
      cases targetValue m c with
      | none => exact ih
      | some p => simp only [List.filterMap_cons, ih]
    · rw [if_neg hb, List.filterMap_cons]
      cases ht : targetValue m c with
      | none => exact ih
      | some p =>
        have hp : p.1 = c := by
          unfold targetValue at ht
          cases hg : m.topology.get? c with
          | none => rw [hg] at ht; cases ht
          | some n =>
            rw [hg] at ht
            simp only [Option.bind_some] at ht
            cases hty : n.type with
            | none => rw [hty] at ht; cases ht
            | some t =>
              rw [hty] at ht
              simp only [Option.bind_some] at ht
              split at ht
              · cases ht; rfl
              · cases ht
        rw [List.filterMap_cons]
        unfold belongs at hb
        rw [← hp] at hb
        cases hfi : featureAndInfo cfg p.1 with
        | error e => exact ih
        | ok gi =>
          rw [hfi] at hb
          have hne : gi.1 ≠ f := by simpa using hb
          dsimp only
          rw [if_neg (fun h => hne h.1)]
          exact ih

theorem label_of {cfg : GenConf α} {fs : Dict (Feature α)} {st : Dict α} {gr : Dict (List (String × α))} {p : Dict Label}
    (h1 : groupResult cfg fs st [] = .ok gr) (h2 : discreteResult gr = .ok p) (f : String) :
    p.get? f = if picks cfg fs f st = [] then none else (bestLabel (picks cfg fs f st)).toOption := by
  obtain ⟨k1, k2⟩ := groupResult_spec st [] gr h1 (fun f l hl => by cases hl)
  have k2 := k2 f
  obtain ⟨d1, d2⟩ := discreteResult_get gr p h2 f
  cases hg : gr.get? f with
  | none =>
    rw [hg] at k2
    have e : picks cfg fs f st = [] := by simpa [Dict.get?] using k2.symm
    rw [if_pos e, d2 hg]
  | some outs =>
    rw [hg] at k2
    have e : picks cfg fs f st = outs := by simpa [Dict.get?] using k2.symm
    rw [if_neg (by rw [e]; exact k1 f outs hg), e]
    obtain ⟨l, hl, hb⟩ := d1 outs hg
    rw [hl, hb]
    rfl

/-- The labels read off two maps with the same values. -/
theorem labels_mirror {cfg : GenConf α} {fs gs : Dict (Feature α)} (he : ∀ f, gs.get? f = fs.get? f) {m n : FCM α}
    (h : Mirror m n) (hv : ∀ c, n.getConceptValue c = m.getConceptValue c)
    (ho : ∀ f, n.execution.keys.filter (belongs cfg f) = m.execution.keys.filter (belongs cfg f))
    {st st' : Dict α} {gr gr' : Dict (List (String × α))} {p p' : Dict Label}
    (h1 : m.getFinalState = .ok st) (h2 : groupResult cfg fs st [] = .ok gr) (h3 : discreteResult gr = .ok p)
    (h1' : n.getFinalState = .ok st') (h2' : groupResult cfg gs st' [] = .ok gr') (h3' : discreteResult gr' = .ok p')
    (f : String) : p'.get? f = p.get? f := by
  have hp : picks cfg gs f st' = picks cfg fs f st := by
    unfold FCM.getFinalState at h1 h1'
    rw [finalStateLoop_target m _ _ h1, finalStateLoop_target n _ _ h1', picks_target, picks_target m, ho]
    have ht : targetValue n = targetValue m := by
      funext c
      unfold targetValue
      have hvc := hv c
      unfold FCM.getConceptValue at hvc
      cases ha : m.topology.get? c with
      | none => rw [h.get_none ha]
      | some a =>
        obtain ⟨b, hb, e⟩ := h.get ha
        have e1 : b.type = a.type := (congrArg Node.type e :)
        rw [ha, hb] at hvc
        have e2 : b.value = a.value := Option.some.inj hvc
        rw [hb]
        simp only [Option.bind_some, e1, e2]
    rw [ht]
    unfold picks
    simp only [he]
  rw [label_of h2 h3, label_of h2' h3', hp]

end PyFCM
