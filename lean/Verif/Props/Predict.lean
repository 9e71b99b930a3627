import Verif.Props.Estimator
import Verif.Props.State
import Verif.Props.Sort
/-
What is predicted (C42) and how the input of a prediction reaches the map (C45).
-/
namespace PyFCM
open Arith

set_option linter.unusedSectionVars false

variable {α : Type} [Arith α]

/-! ### The label with the highest activation -/

theorem argmaxLoop_spec [Ordered α] : ∀ (outs : List (String × α)) (pos : Nat) (best : α) (res : Nat),
    (argmaxLoop outs pos best res = res ∧ ∀ q ∈ outs, (best <? q.2) = false) ∨
    ∃ i, ∃ h : i < outs.length, argmaxLoop outs pos best res = pos + i ∧ (best <? outs[i].2) = true ∧
      ∀ q ∈ outs, (outs[i].2 <? q.2) = false
  | [], _, _, _ => .inl ⟨rfl, by simp⟩
  | (s, o) :: rest, pos, best, res => by
    have ho : StrictOrder (Arith.lt : α → α → Bool) := Ordered.lt
    unfold argmaxLoop
    split
    · rename_i hb
      rcases argmaxLoop_spec rest (pos + 1) o pos with ⟨h1, h2⟩ | ⟨i, hi, h1, h2, h3⟩
      · refine .inr ⟨0, by simp, by simpa using h1, by simpa using hb, ?_⟩
        intro q hq
        rcases List.mem_cons.1 hq with rfl | hq
        · exact ho.irrefl o
        · exact h2 q hq
      · refine .inr ⟨i + 1, by simpa using hi, by rw [h1]; omega, ?_, ?_⟩
        · exact ho.trans _ _ _ hb (by simpa using h2)
        · intro q hq
          rcases List.mem_cons.1 hq with rfl | hq
          · show (rest[i].2 <? o) = false
            rw [← Bool.not_eq_true]
            intro h
            have := ho.trans _ _ _ h2 h
            rw [ho.irrefl] at this; cases this
          · exact h3 q hq
    · rename_i hb
      have hb : (best <? o) = false := by simpa using hb
      rcases argmaxLoop_spec rest (pos + 1) best res with ⟨h1, h2⟩ | ⟨i, hi, h1, h2, h3⟩
      · refine .inl ⟨h1, ?_⟩
        intro q hq
        rcases List.mem_cons.1 hq with rfl | hq
        · exact hb
        · exact h2 q hq
      · refine .inr ⟨i + 1, by simpa using hi, by rw [h1]; omega, by simpa using h2, ?_⟩
        intro q hq
        rcases List.mem_cons.1 hq with rfl | hq
        · show (rest[i].2 <? o) = false
          rw [← Bool.not_eq_true]
          intro h
          have := ho.trans _ _ _ h2 h
          rw [hb] at this; cases this
        · exact h3 q hq

/-- The chosen label has the highest activation, unless all are below -1. -/
theorem bestLabel_spec [Ordered α] {outs : List (String × α)} {l : Label} (h : bestLabel outs = .ok l)
    (hlow : ∀ q ∈ outs, (q.2 <? lit (-1)) = false) :
    ∃ q ∈ outs, l = toLabel q.1 ∧ ∀ q' ∈ outs, (q.2 <? q'.2) = false := by
  unfold bestLabel at h
  obtain ⟨r, hr, h⟩ := exc_bind_ok h
  cases h
  unfold pyIdx at hr
  split at hr
  · rename_i v hv
    cases hr
    rcases argmaxLoop_spec outs 0 (lit (-1)) 0 with ⟨h1, h2⟩ | ⟨i, hi, h1, h2, h3⟩
    · rw [h1] at hv
      have hm := List.mem_of_getElem? hv
      refine ⟨r, hm, rfl, ?_⟩
      intro q' hq'
      have e1 : r.2 = lit (-1) := (Ordered.lt : StrictOrder (Arith.lt : α → α → Bool)).tri _ _ (hlow r hm) (h2 r hm)
      rw [e1]
      exact h2 q' hq'
    · rw [h1, Nat.zero_add, List.getElem?_eq_getElem hi] at hv
      cases hv
      exact ⟨outs[i], List.getElem_mem hi, rfl, h3⟩
  · cases hr

/-- The values of feature `f` in a final state. -/
def picks (cfg : GenConf α) (fs : Dict (Feature α)) (f : String) (st : Dict α) : List (String × α) :=
  st.filterMap fun p => match featureAndInfo cfg p.1 with
    | .ok (g, i) => if g = f ∧ (fs.get? g).any (fun F => !isFuzzyType F.type) then some (i, p.2) else none
    | .error _ => none

theorem groupResult_spec {cfg : GenConf α} {fs : Dict (Feature α)} : ∀ (st : Dict α) (acc gr : Dict (List (String × α))),
    groupResult cfg fs st acc = .ok gr → (∀ f l, acc.get? f = some l → l ≠ []) →
      (∀ f l, gr.get? f = some l → l ≠ []) ∧ ∀ f, (gr.get? f).getD [] = (acc.get? f).getD [] ++ picks cfg fs f st
  | [], acc, gr, h, ha => by
    unfold groupResult at h
    cases h
    exact ⟨ha, fun f => by simp [picks]⟩
  | (c, v) :: rest, acc, gr, h, ha => by
    unfold groupResult at h
    obtain ⟨⟨g, i⟩, h1, h⟩ := exc_bind_ok h
    obtain ⟨F, h2, h⟩ := exc_bind_ok h
    have h2 := need_eq_ok.1 h2
    split at h
    · rename_i hf
      obtain ⟨k1, k2⟩ := groupResult_spec rest acc gr h ha
      refine ⟨k1, fun f => ?_⟩
      rw [k2 f]
      simp only [picks, List.filterMap_cons, h1]
      by_cases hg : g = f
      · subst hg; simp [h2, hf]
      · simp [hg]
    · rename_i hf
      have h' : groupResult cfg fs rest (acc.set g ((acc.get? g).getD [] ++ [(i, v)])) = .ok gr := by
        rw [← h]; cases acc.get? g <;> rfl
      obtain ⟨k1, k2⟩ := groupResult_spec rest _ gr h' (by
        intro f l hl
        rw [Dict.get?_set] at hl
        split at hl
        · cases hl; simp
        · exact ha f l hl)
      refine ⟨k1, fun f => ?_⟩
      rw [k2 f, Dict.get?_set]
      simp only [picks, List.filterMap_cons, h1]
      by_cases hg : g = f
      · subst hg; simp [h2, hf]
      · simp [hg]

theorem discreteResult_get : ∀ (gr : Dict (List (String × α))) (p : Dict Label), discreteResult gr = .ok p → ∀ f,
    (∀ outs, gr.get? f = some outs → ∃ l, p.get? f = some l ∧ bestLabel outs = .ok l) ∧
    (gr.get? f = none → p.get? f = none)
  | [], p, h, f => by
    unfold discreteResult at h; cases h
    exact ⟨fun _ h => (by cases h), fun _ => rfl⟩
  | (k, outs) :: rest, p, h, f => by
    unfold discreteResult at h
    obtain ⟨l, h1, h⟩ := exc_bind_ok h
    obtain ⟨r, h2, h⟩ := exc_bind_ok h
    cases h
    simp only [Dict.get?_cons]
    by_cases hk : k = f
    · simp only [hk, if_true]
      exact ⟨fun o ho => by cases ho; exact ⟨l, rfl, h1⟩, fun h => by cases h⟩
    · simp only [hk, if_false]
      exact discreteResult_get rest r h2 f

/-! ### What a fitted estimator looks like -/

/-- `e` results from `e1` by calls of `predict` and `score`, which may have raised. -/
inductive Spec.Since (cfg : GenConf α) (e1 : Estimator α) : Estimator α → Prop
  | start : Spec.Since cfg e1 e1
  | predict {e} (h : Spec.Since cfg e1 e) (x : Ext α) (rows : List (List (String × Cell α))) :
      Spec.Since cfg e1 (Estimator.predict cfg x rows e).2
  | score {e} (h : Spec.Since cfg e1 e) (x : Ext α) (rows : List (List (String × Cell α)))
      (y : List (String × List (Cell α))) : Spec.Since cfg e1 (Estimator.score cfg x rows y e).2

theorem predictRow_view (cfg : GenConf α) (x : Ext α) (fs : Dict (Feature α)) (row : List (String × Cell α)) (m0 : FCM α) :
    Pres (fun m => m.view = m0.view) (predictRow cfg x fs row) := by
  unfold predictRow
  refine Pres.bind ?_ fun _ => Pres.bind ?_ fun _ => ?_
  · intro m hm; exact (clear_quiet m).view.trans hm
  · intro m hm; exact (initRow_quiet m cfg x fs row m (.refl m)).view.trans hm
  · unfold inferenceResult
    refine Pres.bind ?_ fun _ => ?_
    · intro m hm; exact (run_view true m).trans hm
    · refine Pres.bind (fun m hm => hm) fun _ => Pres.bind (Pres.lift _) fun _ => Pres.bind (Pres.lift _) fun _ => Pres.lift _

theorem predictRows_view (cfg : GenConf α) (x : Ext α) (fs : Dict (Feature α)) (m0 : FCM α) :
    ∀ rows, Pres (fun m => m.view = m0.view) (predictRows cfg x fs rows)
  | [] => Pres.pure _
  | r :: rs => by
    unfold predictRows
    exact Pres.bind (predictRow_view cfg x fs r m0) fun _ => Pres.bind (predictRows_view cfg x fs m0 rs) fun _ => Pres.pure _

theorem predict_same (cfg : GenConf α) (x : Ext α) (rows : List (List (String × Cell α))) (e : Estimator α) :
    (Estimator.predict cfg x rows e).2.features = e.features ∧ (Estimator.predict cfg x rows e).2.fcm.view = e.fcm.view := by
  rcases predict_snd cfg x rows e with h | ⟨h, -⟩
  · rw [h]; exact ⟨rfl, rfl⟩
  · rw [h]; exact ⟨rfl, predictRows_view cfg x e.features e.fcm rows e.fcm rfl⟩

theorem Spec.Since.same {cfg : GenConf α} {e1 e : Estimator α} (h : Spec.Since cfg e1 e) :
    e.features = e1.features ∧ e.fcm.view = e1.fcm.view := by
  induction h with
  | start => exact ⟨rfl, rfl⟩
  | predict h x rows ih =>
    obtain ⟨h1, h2⟩ := predict_same cfg x rows _
    exact ⟨h1.trans ih.1, h2.trans ih.2⟩
  | score h x rows y ih =>
    rw [score_snd]
    obtain ⟨h1, h2⟩ := predict_same cfg x rows _
    exact ⟨h1.trans ih.1, h2.trans ih.2⟩

theorem Spec.Since.sound {cfg : GenConf α} {e1 e : Estimator α} (h : Spec.Since cfg e1 e) (h1 : Sound e1.fcm) :
    Sound e.fcm := by
  induction h with
  | start => exact h1
  | predict h x rows ih => exact predict_sound ih x rows
  | score h x rows y ih => rw [score_snd]; exact predict_sound ih x rows

theorem born_disc {d : DefaultConcept α} {ty : String} {n : Node α} (h : Born d (discArgs ty) n) (hv : isValidType ty = true)
    (hf : isFuzzyType ty = false) : n.type = some ty ∧ n.fn = some d.fn := by
  obtain ⟨n0, h0, rfl⟩ := h
  unfold buildNode at h0
  obtain ⟨_, s1, h1, g1⟩ := bind_okP h0
  obtain ⟨_, s2, h2, g2⟩ := bind_okP g1
  obtain rfl := modify_okP h2
  obtain ⟨ad, s3, h3, g3⟩ := bind_okP g2
  have hb : buildType d (discArgs ty : ConceptArgs α) = ty := by simp [buildType, discArgs, hv]
  rw [hb] at h3
  unfold buildFuzzy at h3
  rw [if_neg (by simp [hf])] at h3
  obtain ⟨rfl, rfl⟩ := pure_okP h3
  unfold buildRest at g3
  obtain ⟨_, s4, h4, g4⟩ := bind_okP g3
  obtain rfl := modify_okP h4
  obtain ⟨v, s5, h5, g5⟩ := bind_okP g4
  obtain rfl := modify_okP g5
  simp only [buildFn, discArgs] at h5
  obtain ⟨_, s6, h6, g6⟩ := bind_okP h5
  obtain rfl := modify_okP h6
  obtain ⟨_, s7, h7, g7⟩ := bind_okP g6
  obtain ⟨-, rfl⟩ := lift_okP h7
  obtain ⟨_, s8, h8, g8⟩ := bind_okP g7
  obtain rfl := modify_okP h8
  obtain ⟨-, rfl⟩ := pure_okP g8
  exact ⟨rfl, rfl⟩

theorem born_cont {d : DefaultConcept α} {ty : String} {memb vl : List α} {n : Node α} (h : Born d (contArgs ty memb vl) n)
    (hv : isValidType ty = true) (hf : isFuzzyType ty = true) : n.type = some ty ∧
      (∃ f, n.fn = some f ∧ f.name = "fuzzy") ∧
      ∃ p, processActivationDict [("membership", .arr memb), ("val_list", .arr vl)] = .ok p ∧ n.fuzzyAct = some p.1 := by
  obtain ⟨n0, h0, rfl⟩ := h
  unfold buildNode at h0
  obtain ⟨_, s1, h1, g1⟩ := bind_okP h0
  obtain ⟨_, s2, h2, g2⟩ := bind_okP g1
  obtain rfl := modify_okP h2
  obtain ⟨ad, s3, h3, g3⟩ := bind_okP g2
  have hb : buildType d (contArgs ty memb vl : ConceptArgs α) = ty := by simp [buildType, contArgs, hv]
  rw [hb] at h3
  unfold buildFuzzy at h3
  rw [if_pos hf] at h3
  simp only [contArgs] at h3
  obtain ⟨k1, p, k2, rfl, k3, -, -⟩ := storeFuzzy_ok h3
  have kt : s3.type = some ty := congrArg Node.type k1
  unfold buildRest at g3
  obtain ⟨_, s4, h4, g4⟩ := bind_okP g3
  obtain rfl := modify_okP h4
  obtain ⟨v, s5, h5, g5⟩ := bind_okP g4
  obtain rfl := modify_okP g5
  simp only [buildFn] at h5
  obtain ⟨_, s6, h6, g6⟩ := bind_okP h5
  obtain rfl := modify_okP h6
  obtain ⟨-, rfl⟩ := lift_okP g6
  exact ⟨kt, ⟨_, rfl, rfl⟩, p, k2, k3⟩

/-- What `fit` leaves of one column. -/
structure Fitted (cfg : GenConf α) (x : Ext α) (ts : List String) (d : DefaultConcept α) (e1 : Estimator α)
    (q : String × Column α) (F : Feature α) (cs : List (String × ConceptArgs α)) : Prop where
  feat : FeatureOf cfg x ts q.1 q.2 F cs
  get : e1.features.get? q.1 = some F
  node : ∀ p ∈ cs, ∃ n0 n fit, Born d p.2 n0 ∧ e1.fcm.topology.get? p.1 = some n ∧ Kin fit n0 n

theorem fit_fitted [Ordered α] {cfg : GenConf α} {x : Ext α} {xs ys : List (String × Column α)} {e0 e e1 : Estimator α}
    {b : Bool} (hn : Spec.New e0) (h : Spec.Hist cfg e0 b e) (hx : ∀ l, (x.order l).Perm l)
    (hr : Spec.Readable cfg x (joinColumns xs ys)) (hf : Estimator.fit cfg x xs ys e = (.ok (), e1)) :
    CleanInv e1.fcm ∧ Sound e1.fcm ∧
    (∀ c ∈ e1.fcm.topology.keys, ∃ q ∈ joinColumns xs ys, Spec.ConceptOf cfg x q c) ∧
    ∀ q ∈ joinColumns xs ys, ∃ F cs, Fitted cfg x (ys.map (·.1)) e0.fcm.default e1 q F cs := by
  obtain ⟨he, -⟩ := h.ok hn
  have hs := fit_sound he hf
  have hk := (C55_refit hn h hx hr.columns hf).1
  rcases fit_cases he hf with ⟨err, h1, -⟩ | ⟨m0, g, hm, hb, rfl⟩
  · cases h1
  obtain ⟨W, L, hB⟩ := buildFcm_built hx hr.columns hb
  have hnd := hB.names_nodup hr
  refine ⟨hB.clean (emptied_clean hm), hs, fun c hc => (hk c).1 hc, fun q hq => ?_⟩
  obtain ⟨w, hw, ew, hF⟩ := hB.of_col hq
  refine ⟨w.2.1, w.2.2, hF, ?_, ?_⟩
  · show g.features.get? q.1 = _
    have hgn : g.features.keys.Nodup := by
      have : g.features.keys = W.map (·.1) := by
        rw [hB.features]; simp [Dict.keys, Function.comp_def]
      rw [this, hB.wnames]; exact hr.columns
    refine Dict.get?_of_mem hgn ?_
    rw [hB.features, List.mem_map]
    exact ⟨w, hw, by rw [ew]⟩
  · intro p hp
    obtain ⟨n0, n, h1, h2, h3⟩ := hB.born hnd w hw p hp
    have hd : m0.default = e0.fcm.default := by
      have := congrArg FCM.default hm.settings
      exact this
    exact ⟨n0, n, _, hd ▸ h1, h2, h3⟩

theorem Fitted.type {cfg : GenConf α} {x : Ext α} {ts : List String} {d : DefaultConcept α} {e1 : Estimator α}
    {q : String × Column α} {F : Feature α} {cs : List (String × ConceptArgs α)} (h : Fitted cfg x ts d e1 q F cs)
    {c : String} (hc : c ∈ F.names) : ∃ n, e1.fcm.topology.get? c = some n ∧ n.type = some F.type := by
  have hf := h.feat
  unfold FeatureOf at hf
  split at hf
  · obtain ⟨ht, hN, -, rfl⟩ := hf
    obtain ⟨n0, n, fit, h1, h2, h3⟩ := h.node (c, discArgs F.type) (by simpa using hc)
    refine ⟨n, h2, ?_⟩
    rw [h3.1]
    exact (born_disc h1 (by rw [ht]; split <;> decide) (by rw [ht]; split <;> decide)).1
  · obtain ⟨n, vl, memb, -, hl, ht, hN, -, rfl⟩ := hf
    obtain ⟨i, hi, e⟩ := List.mem_iff_getElem.1 hc
    have hlen : F.names.length = n := by rw [hN]; simp
    have hm : (c, contArgs F.type (memb[i]'(by omega)) vl) ∈ (F.names.zip memb).map fun p => (p.1, contArgs F.type p.2 vl) := by
      refine List.mem_map.2 ⟨(c, memb[i]'(by omega)), ?_, rfl⟩
      rw [List.mem_iff_getElem]
      exact ⟨i, by simp; omega, by rw [List.getElem_zip, e]⟩
    obtain ⟨n0, n', fit, h1, h2, h3⟩ := h.node _ hm
    refine ⟨n', h2, ?_⟩
    rw [h3.1]
    exact (born_cont h1 (by rw [ht]; split <;> decide) (by rw [ht]; split <;> decide)).1

/-! ### C42 -/

/-- The label is the value, with its type. -/
def Spec.Typed : Cell α → Label → Prop
  | .str s, l => l = .str s
  | .int i, l => ∃ n : Nat, i = n ∧ l = .int n
  | _, _ => False

/-- A text that is not a numeral, or a natural number. -/
def Spec.Plain : Cell α → Prop
  | .str s => s = "" ∨ ∃ c ∈ s.toList, c.isDigit = false
  | .int i => 0 ≤ i
  | _ => False

theorem toLabel_typed (x : Ext α) {u : Cell α} (h : Spec.Plain u) : Spec.Typed u (toLabel (u.text x)) := by
  cases u with
  | str s =>
    have : isNumeric s = false := by
      unfold isNumeric
      rcases h with rfl | ⟨c, hc, hd⟩
      · rfl
      · rw [Bool.and_eq_false_iff]
        right
        rw [List.all_eq_false]
        exact ⟨c, hc, by simp [hd]⟩
    show toLabel s = .str s
    unfold toLabel
    rw [this]; rfl
  | int i =>
    obtain ⟨n, rfl⟩ := Int.eq_ofNat_of_zero_le h
    refine ⟨n, rfl, ?_⟩
    have e : (toString (n : Int)).toList = Nat.toDigits 10 n := by
      show (Nat.repr n).toList = _
      rw [Nat.toList_repr]
    show toLabel (toString (n : Int)) = .int n
    have hnum : isNumeric (toString (n : Int)) = true := by
      unfold isNumeric
      rw [e, Bool.and_eq_true]
      refine ⟨by simp [Nat.toDigits_ne_nil], ?_⟩
      rw [List.all_eq_true]
      exact fun c hc => Nat.isDigit_of_mem_toDigits (by omega) (by omega) hc
    have hd : ∀ l : List Char, digitsToNat l = Nat.ofDigitChars 10 l 0 := by
      intro l
      unfold digitsToNat Nat.ofDigitChars
      simp only [Nat.mul_comm]
    unfold toLabel
    rw [hnum, if_pos rfl, hd, e, Nat.ofDigitChars_toDigits (by omega) (by omega)]
  | bool b => exact h.elim
  | float v => exact h.elim

/-- C42 in full: for each categorical target the prediction is one of the training values, with its type, and no other
training value has a higher final activation. -/
def C42_full (α : Type) [Arith α] : Prop :=
  ∀ (cfg : GenConf α) (x : Ext α) (xs ys : List (String × Column α)) (e0 e1 e2 : Estimator α)
    (r : List (String × Cell α)) (p : Dict Label), Spec.New e0 → (∀ l, (x.order l).Perm l) →
    Estimator.fit cfg x xs ys e0 = (.ok (), e1) → Estimator.predict cfg x [r] e1 = (.ok [p], e2) →
    ∃ st, e2.fcm.getFinalState = .ok st ∧ ∀ q ∈ ys, q.2.isDiscrete cfg = true → Spec.cells q.2 ≠ [] →
      ∃ u ∈ Spec.cells q.2, ∃ l a, List.lookup q.1 p = some l ∧ Spec.Typed u l ∧
        (u.text x ++ cfg.separator ++ q.1, a) ∈ st ∧
        ∀ u' ∈ Spec.cells q.2, ∃ a', (u'.text x ++ cfg.separator ++ q.1, a') ∈ st ∧ (a <? a') = false

/-- C42: it holds if the names can be read, no target has the name of an input, the chosen value is a natural number
or a text that is not a numeral, and no final activation is below -1.  Only targets are predicted. -/
theorem C42_predict_partial [Ordered α] {cfg : GenConf α} {x x' : Ext α} {xs ys : List (String × Column α)}
    {e0 e e1 e2 e3 : Estimator α} {b : Bool} {r : List (String × Cell α)} {p : Dict Label}
    (hn : Spec.New e0) (h : Spec.Hist cfg e0 b e) (hx : ∀ l, (x.order l).Perm l)
    (hr : Spec.Readable cfg x (xs ++ ys)) (hf : Estimator.fit cfg x xs ys e = (.ok (), e1))
    (hs : Spec.Since cfg e1 e2) (hp : Estimator.predict cfg x' [r] e2 = (.ok [p], e3)) :
    ∃ st, e3.fcm.getFinalState = .ok st ∧
      (∀ f l, List.lookup f p = some l → ∃ q ∈ ys, q.1 = f) ∧
      ∀ q ∈ ys, q.2.isDiscrete cfg = true → Spec.cells q.2 ≠ [] →
      (∀ u ∈ Spec.cells q.2, ∀ a, (u.text x ++ cfg.separator ++ q.1, a) ∈ st → (a <? lit (-1)) = false) →
      ∃ u ∈ Spec.cells q.2, ∃ l a, List.lookup q.1 p = some l ∧ (Spec.Plain u → Spec.Typed u l) ∧
        (u.text x ++ cfg.separator ++ q.1, a) ∈ st ∧
        ∀ u' ∈ Spec.cells q.2, ∃ a', (u'.text x ++ cfg.separator ++ q.1, a') ∈ st ∧ (a <? a') = false := by
  have hj : joinColumns xs ys = xs ++ ys := by
    unfold joinColumns
    congr 1
    conv_rhs => rw [← List.map_id ys]
    refine List.map_congr_left fun q hq => ?_
    have hd := List.nodup_append.1 (by simpa using hr.columns : (xs.map (·.1) ++ ys.map (·.1)).Nodup)
    rw [if_neg]
    · rfl
    · intro hm
      exact hd.2.2 q.1 hm q.1 (List.mem_map_of_mem hq) rfl
  obtain ⟨hc1, hs1, hk, hfit⟩ := fit_fitted hn h hx (hj ▸ hr) hf
  rw [hj] at hk hfit
  obtain ⟨hfe, hv⟩ := hs.same
  have hs2 := hs.sound hs1
  -- the run on the row
  have hg2 : e2.generated = true := by
    unfold Estimator.predict at hp
    split at hp
    · assumption
    · cases hp
  unfold Estimator.predict at hp
  rw [if_pos hg2] at hp
  rcases hrow : predictRow cfg x' e2.features r e2.fcm with ⟨_ | p1, m3⟩
  · unfold predictRows at hp
    rw [PyM.run_bind, hrow] at hp
    cases hp
  have hrows : predictRows cfg x' e2.features [r] e2.fcm = (.ok [p1], m3) := by
    unfold predictRows
    rw [PyM.run_bind, hrow]
    rfl
  rw [hrows] at hp
  cases hp
  obtain ⟨hs3, ht3, -⟩ := predictRow_calm hs2 hrow
  obtain ⟨_, _, _, _, hinf⟩ := predictRow_ok hrow
  obtain ⟨-, st, gr, hst, hgr, hdr⟩ := inferenceResult_ok hinf
  have hv3 : m3.view = e1.fcm.view := ht3.view.trans hv
  have hgood := good_view hc1.good hv3
  obtain ⟨st', hst', -, hmem⟩ := final_state_of hs3.inv hs3.sameKeys (fun c n hn => (hgood c n hn).full.type) "target" []
  rw [hst] at hst'
  cases hst'
  rw [hfe] at hgr
  obtain ⟨hne, hgr⟩ := groupResult_spec st [] gr hgr (by simp)
  have htype : ∀ q ∈ xs ++ ys, ∀ c, Spec.ConceptOf cfg x q c → ∃ F cs n, Fitted cfg x (ys.map (·.1)) e0.fcm.default e1 q F cs ∧
      m3.topology.get? c = some n ∧ n.type = some F.type := by
    intro q hq c hc
    obtain ⟨F, cs, hF⟩ := hfit q hq
    obtain ⟨n, h1, h2⟩ := hF.type ((mem_names hF.feat c).2 hc)
    have := view_get hv3 c
    rw [h1] at this
    obtain ⟨n', e1', e2'⟩ := Option.map_eq_some_iff.1 this
    exact ⟨F, cs, n', hF, e1', (congrArg Node.type e2').trans h2⟩
  have hcol : ∀ q ∈ xs ++ ys, ∀ q' ∈ xs ++ ys, q.1 = q'.1 → q = q' := fun q hq q' hq' e =>
    List.inj_on_of_nodup_map hr.columns hq hq' e
  -- every pick is one of the training values
  have hpick : ∀ f i v, (i, v) ∈ picks cfg e1.features f st → ∃ q ∈ xs ++ ys, q.1 = f ∧ q.1 ∈ ys.map (·.1) ∧ ∃ c,
      Spec.ConceptOf cfg x q c ∧ (c, v) ∈ st ∧ featureAndInfo cfg c = .ok (f, i) := by
    intro f i v hi
    obtain ⟨⟨c, w⟩, hcst, hi⟩ := List.mem_filterMap.1 hi
    cases hp : featureAndInfo cfg c with
    | error _ => rw [hp] at hi; cases hi
    | ok gi =>
      obtain ⟨g, i'⟩ := gi
      rw [hp] at hi
      dsimp only at hi
      split at hi
      · rename_i hg
        cases hi
        obtain ⟨n, ty, hn', hty, hw, rfl⟩ := (hmem c v).1 hcst
        have hck : c ∈ e1.fcm.topology.keys := by
          rw [← view_keys hv3]; exact Dict.mem_keys_of_get? hn'
        obtain ⟨q, hq, hqc⟩ := hk c hck
        obtain ⟨s, hs⟩ := hqc.parse hr hq
        rw [hp] at hs
        have eg : g = q.1 := (Prod.mk.inj (Except.ok.inj hs)).1
        obtain ⟨F, cs, n', hF, h1, h2⟩ := htype q hq c hqc
        rw [hn'] at h1
        cases h1
        rw [hty] at h2
        cases h2
        refine ⟨q, hq, eg.symm.trans hg.1, ?_, c, hqc, hcst, by rw [hp, hg.1]⟩
        have := (isTarget_iff hF.feat).1
        refine this ?_
        unfold isTarget
        rcases hw with h | ⟨-, h⟩ | ⟨-, h, -⟩
        · exact absurd h (by decide)
        · rcases h with h | h <;> simp [h]
        · exact absurd rfl h
      · cases hi
  refine ⟨st, hst, ?_, ?_⟩
  · intro f l hl
    rw [← get?_lookup] at hl
    obtain ⟨h1, h2⟩ := discreteResult_get gr p hdr f
    cases hgf : gr.get? f with
    | none => rw [h2 hgf] at hl; cases hl
    | some outs =>
      have := hgr f
      rw [hgf] at this
      have ho : outs = picks cfg e1.features f st := by simpa using this
      obtain ⟨⟨i, v⟩, hi⟩ := List.exists_mem_of_ne_nil _ (hne f outs hgf)
      rw [ho] at hi
      obtain ⟨q, hq, e, ht, -⟩ := hpick f i v hi
      obtain ⟨q', hq', e'⟩ := List.mem_map.1 ht
      exact ⟨q', hq', e'.trans e⟩
  · intro q hq hd hcells hlow
    have hqm : q ∈ xs ++ ys := List.mem_append_right _ hq
    have hqt : q.1 ∈ ys.map (·.1) := List.mem_map_of_mem hq
    -- every training value is picked
    have hall : ∀ u ∈ Spec.cells q.2, ∃ v, (u.text x ++ cfg.separator ++ q.1, v) ∈ st ∧
        (u.text x, v) ∈ picks cfg e1.features q.1 st := by
      intro u hu
      have hc : Spec.ConceptOf cfg x q (u.text x ++ cfg.separator ++ q.1) := by
        unfold Spec.ConceptOf
        rw [if_pos hd]
        exact ⟨u, hu, rfl⟩
      obtain ⟨F, cs, n, hF, h1, h2⟩ := htype q hqm _ hc
      have hFt : F.type = TYPE_DECISION := by
        have := hF.feat
        unfold FeatureOf at this
        rw [if_pos hd, if_pos hqt] at this
        exact this.1
      have hst2 : (u.text x ++ cfg.separator ++ q.1, n.value) ∈ st :=
        (hmem _ _).2 ⟨n, F.type, h1, h2, by simp [Spec.Wanted, hFt], rfl⟩
      refine ⟨n.value, hst2, List.mem_filterMap.2 ⟨_, hst2, ?_⟩⟩
      have hparse := (C41_parse_partial cfg q.1 (u.text x)).2 ⟨hr.sep, hr.values q hqm hd u hu, hr.feats q hqm⟩
      unfold nameConcept at hparse
      dsimp only
      rw [hparse]
      dsimp only
      rw [if_pos ⟨rfl, by rw [hF.get, Option.any_some, hFt]; decide⟩]
    obtain ⟨u0, hu0⟩ := List.exists_mem_of_ne_nil _ hcells
    obtain ⟨v0, -, hv0⟩ := hall u0 hu0
    cases hgf : gr.get? q.1 with
    | none =>
      have := hgr q.1
      rw [hgf] at this
      have : picks cfg e1.features q.1 st = [] := by simpa using this.symm
      rw [this] at hv0
      cases hv0
    | some outs =>
      have := hgr q.1
      rw [hgf] at this
      have ho : outs = picks cfg e1.features q.1 st := by simpa using this
      obtain ⟨l, hl, hbest⟩ := (discreteResult_get gr p hdr q.1).1 outs hgf
      rw [ho] at hbest
      -- picks are values of this column
      have hval : ∀ i v, (i, v) ∈ picks cfg e1.features q.1 st → ∃ u ∈ Spec.cells q.2, i = u.text x ∧
          (u.text x ++ cfg.separator ++ q.1, v) ∈ st := by
        intro i v hi
        obtain ⟨q', hq', e, -, c, hqc, hcst, hpc⟩ := hpick q.1 i v hi
        have := hcol q' hq' q hqm e
        subst this
        unfold Spec.ConceptOf at hqc
        rw [if_pos hd] at hqc
        obtain ⟨u, hu, rfl⟩ := hqc
        have hparse := (C41_parse_partial cfg q'.1 (u.text x)).2 ⟨hr.sep, hr.values q' hqm hd u hu, hr.feats q' hqm⟩
        unfold nameConcept at hparse
        rw [hparse] at hpc
        exact ⟨u, hu, (Prod.mk.inj (Except.ok.inj hpc)).2.symm, hcst⟩
      obtain ⟨⟨i, v⟩, hi, rfl, hmax⟩ := bestLabel_spec hbest (by
        rintro ⟨i, v⟩ hi
        obtain ⟨u, hu, -, hst2⟩ := hval i v hi
        exact hlow u hu v hst2)
      obtain ⟨u, hu, rfl, hust⟩ := hval i v hi
      refine ⟨u, hu, _, v, by rw [← get?_lookup]; exact hl, toLabel_typed x, hust, ?_⟩
      intro u' hu'
      obtain ⟨v', h1, h2⟩ := hall u' hu'
      exact ⟨v', h1, hmax _ h2⟩

/-! ### C45 -/

theorem initConcept_plain {m : FCM α} {c : String} {n : Node α} {f : FnInfo α} (v : α) (hn : m.topology.get? c = some n)
    (hf : n.fn = some f) (hname : f.name ≠ "fuzzy") : FCM.initConcept c v false m = (.ok (), { m with
      topology := m.topology.set c { n with value := v, aux := [] }, execution := m.execution.set c [v] }) := by
  unfold FCM.initConcept
  rw [hn]
  dsimp only
  rw [hf]
  dsimp only
  rw [if_neg hname]

theorem initConcept_fuzzy {m : FCM α} {c : String} {n : Node α} {f : FnInfo α} {fa : FuzzyDesc α} {v a : α}
    (hn : m.topology.get? c = some n) (hf : n.fn = some f) (hname : f.name = "fuzzy") (hfa : n.fuzzyAct = some fa)
    (ha : fuzzySet v fa.membership fa.valList = .ok a) : FCM.initConcept c v false m = (.ok (), { m with
      topology := m.topology.set c { n with value := a, aux := [] }, execution := m.execution.set c [a] }) := by
  unfold FCM.initConcept
  rw [hn]
  dsimp only
  rw [hf]
  dsimp only
  rw [if_pos hname, hfa]
  dsimp only
  rw [ha]

/-- The concept `c` would get the value `a` when initialised with `v`. -/
def Takes (m : FCM α) (v : α) (c : String) (a : α) : Prop :=
  ∃ n f fa, m.topology.get? c = some n ∧ n.fn = some f ∧ f.name = "fuzzy" ∧ n.fuzzyAct = some fa ∧
    fuzzySet v fa.membership fa.valList = .ok a

theorem initAll_spec (v : α) (A : String → α) : ∀ (cs : List String) (m : FCM α), cs.Nodup → (∀ c ∈ cs, Takes m v c (A c)) →
    ∃ m', initAll v cs m = (.ok (), m') ∧
      (∀ c ∈ cs, (∃ n, m'.topology.get? c = some n ∧ n.value = A c) ∧ m'.execution.get? c = some [A c]) ∧
      ∀ c ∉ cs, m'.topology.get? c = m.topology.get? c ∧ m'.execution.get? c = m.execution.get? c
  | [], m, _, _ => ⟨m, rfl, by simp, fun _ _ => ⟨rfl, rfl⟩⟩
  | c :: cs, m, hnd, h => by
    obtain ⟨hc, hnd⟩ := List.nodup_cons.1 hnd
    obtain ⟨n, f, fa, h1, h2, h3, h4, h5⟩ := h c (by simp)
    have hi := initConcept_fuzzy h1 h2 h3 h4 h5
    obtain ⟨m', k1, k2, k3⟩ := initAll_spec v A cs { m with
      topology := m.topology.set c { n with value := A c, aux := [] }, execution := m.execution.set c [A c] } hnd (by
        intro d hd
        obtain ⟨n', f', fa', g1, g⟩ := h d (by simp [hd])
        have hne : c ≠ d := fun e => hc (e ▸ hd)
        exact ⟨n', f', fa', by rw [Dict.get?_set_ne _ _ hne]; exact g1, g⟩)
    refine ⟨m', ?_, ?_, ?_⟩
    · unfold initAll
      rw [PyM.run_bind, hi]
      exact k1
    · intro d hd
      rcases List.mem_cons.1 hd with rfl | hd
      · obtain ⟨e1, e2⟩ := k3 d hc
        rw [e1, e2]
        simp only [Dict.get?_set_self]
        exact ⟨⟨_, rfl, rfl⟩, trivial⟩
      · exact k2 d hd
    · intro d hd
      rw [List.mem_cons, not_or] at hd
      obtain ⟨e1, e2⟩ := k3 d hd.2
      rw [e1, e2]
      exact ⟨Dict.get?_set_ne _ _ (Ne.symm hd.1), Dict.get?_set_ne _ _ (Ne.symm hd.1)⟩

/-- `≤` and `<` fit together. -/
class Linear (α : Type) [Arith α] : Prop where
  le_lt : ∀ a b : α, (a ≤? b) = !(b <? a)

instance : Linear ℝ := ⟨fun a b => by simp [Arith.le, Arith.lt, ← decide_not, -not_le]⟩
instance : Linear ℚ := ⟨fun a b => by simp [Arith.le, Arith.lt, ← decide_not, -not_le]⟩

/-- Sorting leaves an ascending list as it is. -/
theorem dualQuickSort_sorted [Ordered α] [TotalLe α] [Linear α] {β : Type} {a : List α} {m : List β}
    (hl : a.length = m.length) (hs : a.Pairwise fun x y => (x <? y) = true) : dualQuickSort a m = .ok (a, m) := by
  have ho : StrictOrder (Arith.lt : α → α → Bool) := Ordered.lt
  obtain ⟨a', m', h, hs', hla, hlm, hp⟩ := C24_sort hl
  have hz : ∀ (a : List α) (m : List β), a.length = m.length → (a.zip m).map Prod.fst = a ∧ (a.zip m).map Prod.snd = m :=
    fun a m h => ⟨List.map_fst_zip (by omega), List.map_snd_zip (by omega)⟩
  obtain ⟨z1, z2⟩ := hz a m hl
  obtain ⟨z3, z4⟩ := hz a' m' (by omega)
  have e : a'.zip m' = a.zip m := by
    refine List.Perm.eq_of_pairwise (le := fun p q : α × β => (p.1 ≤? q.1) = true) ?_ ?_ ?_ hp
    · intro p q hp' hq h1 h2
      rw [Linear.le_lt] at h1 h2
      have e1 : p.1 = q.1 := ho.tri _ _ (by simpa using h2) (by simpa using h1)
      have hnd : ((a.zip m).map Prod.fst).Nodup := by
        rw [z1]
        refine hs.imp fun {x y} h e => ?_
        rw [e, ho.irrefl] at h; cases h
      exact List.inj_on_of_nodup_map hnd (hp.subset hp') hq e1
    · rw [← List.pairwise_map (f := Prod.fst) (R := fun x y : α => (x ≤? y) = true), z3]; exact hs'
    · rw [← List.pairwise_map (f := Prod.fst) (R := fun x y : α => (x ≤? y) = true), z1]
      refine hs.imp fun {x y} h => ?_
      rw [Linear.le_lt]
      have : (y <? x) = false := by
        rw [← Bool.not_eq_true]
        intro h'
        have := ho.trans _ _ _ h h'
        rw [ho.irrefl] at this; cases this
      rw [this]; rfl
  rw [e] at z3 z4
  rw [h, ← z3, ← z4, z1, z2]

/-- C45 in full: a value seen in training activates its concept, or for a numeric column sets each cluster to the
membership of the value. -/
def C45_full (α : Type) [Arith α] : Prop :=
  ∀ (cfg : GenConf α) (x : Ext α) (xs ys : List (String × Column α)) (e0 e1 : Estimator α), Spec.New e0 →
    (∀ l, (x.order l).Perm l) → Spec.Readable cfg x (xs ++ ys) → Estimator.fit cfg x xs ys e0 = (.ok (), e1) →
    ∀ q ∈ xs ++ ys, ∀ u ∈ Spec.cells q.2, ∃ m', initByFeature cfg x e1.features q.1 u e1.fcm = (.ok (), m') ∧
      (q.2.isDiscrete cfg = true →
        ∃ n, m'.topology.get? (u.text x ++ cfg.separator ++ q.1) = some n ∧ n.value = lit 1) ∧
      (q.2.isDiscrete cfg = false → ∀ n vl memb v, x.disc q.1 q.2.asFloats = .ok (n, vl, memb) →
        (u = .float v ∨ ∃ i, u = .int i ∧ v = lit i) → ∀ i mb a, i < n → memb[i]? = some mb → fuzzySet v mb vl = .ok a →
        ∃ nd, m'.topology.get? (toString i ++ cfg.separator ++ q.1) = some nd ∧ nd.value = a)

theorem joinColumns_disjoint {xs ys : List (String × Column α)} (hc : ((xs ++ ys).map (·.1)).Nodup) :
    joinColumns xs ys = xs ++ ys := by
  unfold joinColumns
  congr 1
  conv_rhs => rw [← List.map_id ys]
  refine List.map_congr_left fun q hq => ?_
  have hd := List.nodup_append.1 (by simpa using hc : (xs.map (·.1) ++ ys.map (·.1)).Nodup)
  rw [if_neg]
  · rfl
  · intro hm
    exact hd.2.2 q.1 hm q.1 (List.mem_map_of_mem hq) rfl

/-- C45: a text or an integer of a categorical column activates exactly the concept made from it (unless the map's own
function is `fuzzy`: then the call raises). -/
theorem C45_category_partial [Ordered α] {cfg : GenConf α} {x x' : Ext α} {xs ys : List (String × Column α)}
    {e0 e e1 e2 : Estimator α} {b : Bool} (hn : Spec.New e0) (h : Spec.Hist cfg e0 b e)
    (hx : ∀ l, (x.order l).Perm l) (hr : Spec.Readable cfg x (xs ++ ys))
    (hf : Estimator.fit cfg x xs ys e = (.ok (), e1)) (hs : Spec.Since cfg e1 e2)
    (hfn : e0.fcm.default.fn.name ≠ "fuzzy") {q : String × Column α} (hq : q ∈ xs ++ ys)
    (hd : q.2.isDiscrete cfg = true) {u : Cell α} (hu : u ∈ Spec.cells q.2)
    (hk : (∃ s, u = .str s) ∨ ∃ i, u = .int i) :
    ∃ m', initByFeature cfg x' e2.features q.1 u e2.fcm = (.ok (), m') ∧
      (∃ n, m'.topology.get? (u.text x ++ cfg.separator ++ q.1) = some n ∧ n.value = lit 1) ∧
      m'.execution.get? (u.text x ++ cfg.separator ++ q.1) = some [lit 1] ∧
      ∀ c, c ≠ u.text x ++ cfg.separator ++ q.1 →
        m'.topology.get? c = e2.fcm.topology.get? c ∧ m'.execution.get? c = e2.fcm.execution.get? c := by
  have hj := joinColumns_disjoint hr.columns
  obtain ⟨hc1, hs1, -, hfit⟩ := fit_fitted hn h hx (hj ▸ hr) hf
  rw [hj] at hfit
  obtain ⟨hfe, hv⟩ := hs.same
  obtain ⟨F, cs, hF⟩ := hfit q hq
  have hfo := hF.feat
  unfold FeatureOf at hfo
  rw [if_pos hd] at hfo
  obtain ⟨ht, hN, -, rfl⟩ := hfo
  have hc : u.text x ++ cfg.separator ++ q.1 ∈ F.names := by
    rw [hN, List.mem_map]
    exact ⟨u, ((C35_values q.2).2 u).2 hu, rfl⟩
  obtain ⟨n0, n, fit, h1, h2, h3⟩ := hF.node (_, discArgs F.type) (by simpa using hc)
  obtain ⟨-, h4⟩ := born_disc h1 (by rw [ht]; split <;> decide) (by rw [ht]; split <;> decide)
  have h5 := h3.2.2.2.1
  rw [h4] at h5
  obtain ⟨f, hf1, hf2⟩ := Option.map_eq_some_iff.1 h5
  have := view_get hv (u.text x ++ cfg.separator ++ q.1)
  rw [h2] at this
  obtain ⟨n', e1', e2'⟩ := Option.map_eq_some_iff.1 this
  have hfn' : n'.fn = some f := (congrArg Node.fn e2').trans hf1
  have hkey : u.key x' = .ok (u.text x) := by
    rcases hk with ⟨s, rfl⟩ | ⟨i, rfl⟩ <;> rfl
  have hi := initConcept_plain (lit 1) e1' hfn' (by rw [hf2]; exact hfn)
  refine ⟨{ e2.fcm with
      topology := e2.fcm.topology.set (u.text x ++ cfg.separator ++ q.1) { n' with value := lit 1, aux := [] }
      execution := e2.fcm.execution.set (u.text x ++ cfg.separator ++ q.1) [lit 1] }, ?_,
    ⟨_, Dict.get?_set_self _ _ _, rfl⟩, Dict.get?_set_self _ _ _, fun c hc => ⟨Dict.get?_set_ne _ _ (Ne.symm hc),
    Dict.get?_set_ne _ _ (Ne.symm hc)⟩⟩
  unfold initByFeature initByFeatureBody
  rw [PyM.run_bind, hfe, hF.get]
  simp only [need, PyM.run_lift]
  rw [if_neg (by rw [ht]; split <;> decide), PyM.run_bind, PyM.run_lift, hkey]
  dsimp only
  unfold nameConcept
  rw [hi]

/-- C45: a number of a numeric column sets every cluster of the column to the membership that training gave the number
(if the discretization's values are ascending). -/
theorem C45_number_partial [Ordered α] [TotalLe α] [Linear α] {cfg : GenConf α} {x x' : Ext α}
    {xs ys : List (String × Column α)} {e0 e e1 e2 : Estimator α} {b : Bool} (hn : Spec.New e0)
    (h : Spec.Hist cfg e0 b e) (hx : ∀ l, (x.order l).Perm l) (hr : Spec.Readable cfg x (xs ++ ys))
    (hf : Estimator.fit cfg x xs ys e = (.ok (), e1)) (hs : Spec.Since cfg e1 e2) {q : String × Column α}
    (hq : q ∈ xs ++ ys) (hd : q.2.isDiscrete cfg = false) {n : Nat} {vl : List α} {memb : List (List α)}
    (hdisc : x.disc q.1 q.2.asFloats = .ok (n, vl, memb)) (hvl : vl.Pairwise fun a b => (a <? b) = true)
    (hlen : ∀ mb ∈ memb, mb.length = vl.length) {u : Cell α} {v : α} (hu : u = .float v ∨ ∃ i, u = .int i ∧ v = lit i)
    {A : Nat → α} (hA : ∀ i mb, i < n → memb[i]? = some mb → fuzzySet v mb vl = .ok (A i)) :
    ∃ m', initByFeature cfg x' e2.features q.1 u e2.fcm = (.ok (), m') ∧
      (∀ i < n, (∃ nd, m'.topology.get? (toString i ++ cfg.separator ++ q.1) = some nd ∧ nd.value = A i) ∧
        m'.execution.get? (toString i ++ cfg.separator ++ q.1) = some [A i]) ∧
      ∀ c, (∀ i < n, c ≠ toString i ++ cfg.separator ++ q.1) →
        m'.topology.get? c = e2.fcm.topology.get? c ∧ m'.execution.get? c = e2.fcm.execution.get? c := by
  have hj := joinColumns_disjoint hr.columns
  obtain ⟨hc1, hs1, -, hfit⟩ := fit_fitted hn h hx (hj ▸ hr) hf
  rw [hj] at hfit
  obtain ⟨hfe, hv⟩ := hs.same
  obtain ⟨F, cs, hF⟩ := hfit q hq
  have hnd : F.names.Nodup := hF.feat.nodup hr hq
  have hfo := hF.feat
  unfold FeatureOf at hfo
  rw [if_neg (by simp [hd])] at hfo
  obtain ⟨n', vl', memb', hdisc', hl, ht, hN, -, rfl⟩ := hfo
  rw [hdisc] at hdisc'
  cases hdisc'
  have hlenN : F.names.length = n := by rw [hN]; simp
  have hnum : u.num = .ok v := by
    rcases hu with rfl | ⟨i, rfl, rfl⟩ <;> rfl
  -- the value each concept takes
  have htake : ∀ i (hi : i < n), Takes e2.fcm v (F.names[i]'(by omega)) (A i) := by
    intro i hi
    have hm : ((F.names[i]'(by omega)), contArgs F.type (memb[i]'(by omega)) vl) ∈
        (F.names.zip memb).map fun p => (p.1, contArgs F.type p.2 vl) := by
      refine List.mem_map.2 ⟨((F.names[i]'(by omega)), memb[i]'(by omega)), ?_, rfl⟩
      rw [List.mem_iff_getElem]
      exact ⟨i, by simp; omega, by rw [List.getElem_zip]⟩
    obtain ⟨n0, n1, fit, h1, h2, h3⟩ := hF.node _ hm
    obtain ⟨-, ⟨f, h4, h5⟩, p, h6, h7⟩ := born_cont h1 (by rw [ht]; split <;> decide) (by rw [ht]; split <;> decide)
    have h8 := h3.2.2.2.1
    rw [h4] at h8
    obtain ⟨f', hf1, hf2⟩ := Option.map_eq_some_iff.1 h8
    have := view_get hv (F.names[i]'(by omega))
    rw [h2] at this
    obtain ⟨nd, e1', e2'⟩ := Option.map_eq_some_iff.1 this
    obtain ⟨a, b, vl2, mb2, v0, r, mb', g1, g2, g3, g4, g5, g6, -⟩ := processActivationDict_ok h6
    cases g1
    cases g2
    cases g3
    cases g4
    rw [dualQuickSort_sorted (hlen _ (List.getElem_mem _)).symm hvl] at g5
    have g5 := Prod.mk.inj (Except.ok.inj g5)
    refine ⟨nd, f', p.1, e1', (congrArg Node.fn e2').trans hf1, by rw [hf2]; exact h5,
      (congrArg Node.fuzzyAct e2').trans (h3.2.1.trans h7), ?_⟩
    rw [g6]
    dsimp only
    rw [← g5.1, ← g5.2]
    exact hA i _ hi (List.getElem?_eq_getElem (by omega))
  have hAt : ∀ c ∈ F.names, Takes e2.fcm v c (A (F.names.idxOf c)) := by
    intro c hc
    have hi : F.names.idxOf c < n := hlenN ▸ List.idxOf_lt_length_of_mem hc
    have := htake _ hi
    rwa [List.getElem_idxOf] at this
  obtain ⟨m', k1, k2, k3⟩ := initAll_spec v (fun c => A (F.names.idxOf c)) F.names e2.fcm hnd hAt
  have hname : ∀ i (hi : i < n), F.names[i]'(by omega) = toString i ++ cfg.separator ++ q.1 := by
    intro i hi
    simp [hN, nameConcept]
  refine ⟨m', ?_, ?_, ?_⟩
  · unfold initByFeature initByFeatureBody
    rw [PyM.run_bind, hfe, hF.get]
    simp only [need, PyM.run_lift]
    rw [if_pos (by rw [ht]; split <;> decide), PyM.run_bind, PyM.run_lift, hnum]
    dsimp only
    rw [k1]
  · intro i hi
    have := k2 (F.names[i]'(by omega)) (List.getElem_mem _)
    rw [hnd.idxOf_getElem, hname i hi] at this
    exact this
  · intro c hc
    refine k3 c fun hm => ?_
    obtain ⟨i, hi, e⟩ := List.mem_iff_getElem.1 hm
    rw [hname i (by omega)] at e
    exact hc i (by omega) e.symm

/-! ### Examples -/

theorem Ex.est1_readable : Spec.Readable Ex.conf Ex.ext (Ex.xs ++ Ex.ys) := by
  refine readable_default rfl (by decide) (by decide) ?_ ?_
  · intro p hp _ c hc
    simp only [Ex.xs, Ex.ys, List.cons_append, List.nil_append, List.mem_cons, List.not_mem_nil, or_false] at hp
    rcases hp with rfl | rfl <;> simp only [Spec.cells, List.map_cons, List.map_nil, List.mem_cons, List.not_mem_nil,
      or_false] at hc <;> rcases hc with rfl | rfl | rfl <;> simp only [Cell.text] <;> decide
  · intro p hp _ a b ha
    simp only [Ex.xs, Ex.ys, List.cons_append, List.nil_append, List.mem_cons, List.not_mem_nil, or_false] at hp
    rcases hp with rfl | rfl <;> simp [Spec.cells] at ha

/-- C42 on the fitted estimator, after other predictions; the run on the row returns (see Props/Estimator). -/
example {p : Dict Label} {e : Estimator ℚ}
    (h : Estimator.predict Ex.conf Ex.ext [[("color", .str "red")]] Ex.est2 = (.ok [p], e)) :=
  C42_predict_partial Ex.est0_new .start (fun _ => .refl _) Ex.est1_readable Ex.est1_fit
    (.predict .start Ex.ext Ex.rows) h
example : (Estimator.predict Ex.conf Ex.ext [[("color", .str "red")]] Ex.est2).1.toOption =
    some [[("class", .str "yes")]] := by decide +kernel
example : (Estimator.predict Ex.conf Ex.ext [[("color", .str "red")]] Ex.est2).2.fcm.getFinalState.toOption =
    some [("no___class", 0), ("yes___class", 1/2)] := by decide +kernel

/-- A target with truth values. -/
def Ex.ysB : List (String × Column ℚ) := [("class", .bools [true, false, true])]
def Ex.estB : Estimator ℚ := (Estimator.fit Ex.conf Ex.ext Ex.xs Ex.ysB Ex.est0).2
theorem Ex.estB_fit : Estimator.fit Ex.conf Ex.ext Ex.xs Ex.ysB Ex.est0 = (.ok (), Ex.estB) :=
  Ex.pair_of _ (by decide +kernel)

/-- The full claim is false: for a target with truth values the labels are the texts "True" and "False". -/
theorem C42_counterexample : ¬ C42_full ℚ := by
  intro h
  have hp : (Estimator.predict Ex.conf Ex.ext [[("color", .str "red")]] Ex.estB).1.toOption =
      some [[("class", .str "True")]] := by decide +kernel
  rcases hq : Estimator.predict Ex.conf Ex.ext [[("color", .str "red")]] Ex.estB with ⟨_ | ps, e⟩
  · rw [hq] at hp; cases hp
  rw [hq] at hp
  have hp := Option.some.inj hp
  subst hp
  obtain ⟨st, -, h⟩ := h _ _ _ _ _ _ _ _ _ Ex.est0_new (fun _ => .refl _) Ex.estB_fit hq
  obtain ⟨u, hu, l, a, -, ht, -⟩ := h ("class", .bools [true, false, true]) (by simp [Ex.ysB]) rfl (by simp [Spec.cells])
  simp only [Spec.cells, List.map_cons, List.map_nil, List.mem_cons, List.not_mem_nil, or_false] at hu
  rcases hu with rfl | rfl | rfl <;> exact ht

/-- The full claim is false: a truth value is looked up as "1" or "0", which is no concept, and is ignored. -/
theorem C45_counterexample : ¬ C45_full ℚ := by
  intro h
  have hr : Spec.Readable Ex.conf Ex.ext (Ex.xs ++ Ex.ysB) := by
    refine readable_default rfl (by decide) (by decide) ?_ ?_
    · intro p hp _ c hc
      simp only [Ex.xs, Ex.ysB, List.cons_append, List.nil_append, List.mem_cons, List.not_mem_nil, or_false] at hp
      rcases hp with rfl | rfl <;> simp only [Spec.cells, List.map_cons, List.map_nil, List.mem_cons, List.not_mem_nil,
        or_false] at hc <;> rcases hc with rfl | rfl | rfl <;> simp only [Cell.text] <;> decide
    · intro p hp _ a b ha
      simp only [Ex.xs, Ex.ysB, List.cons_append, List.nil_append, List.mem_cons, List.not_mem_nil, or_false] at hp
      rcases hp with rfl | rfl <;> simp [Spec.cells] at ha
  obtain ⟨m', h1, h2, -⟩ := h _ _ _ _ _ _ Ex.est0_new (fun _ => .refl _) hr Ex.estB_fit
    ("class", .bools [true, false, true]) (by simp [Ex.ysB]) (.bool true) (by simp [Spec.cells])
  obtain ⟨n, h2, h3⟩ := h2 rfl
  have hv : ((initByFeature Ex.conf Ex.ext Ex.estB.features "class" (.bool true) Ex.estB.fcm).2.topology.get?
      "True___class").map Node.value = some 0 := by decide +kernel
  dsimp only at h1
  rw [h1] at hv
  have e : Cell.text Ex.ext (.bool true) ++ Ex.conf.separator ++ "class" = "True___class" := by decide
  dsimp only at h2 hv
  rw [e] at h2
  rw [h2] at hv
  have := Option.some.inj hv
  rw [h3] at this
  exact absurd this (by decide)

/-- C45 on a text. -/
example := C45_category_partial (x' := Ex.ext) Ex.est0_new .start (fun _ => .refl _) Ex.est1_readable Ex.est1_fit
  (.predict .start Ex.ext Ex.rows) (by decide +kernel) (q := ("color", .strs ["red", "blue", "red"])) (by simp [Ex.xs]) rfl
  (u := .str "red") (by simp [Spec.cells]) (.inl ⟨_, rfl⟩)

/-- A numeric column of two clusters. -/
def Ex.tens : List ℚ := [1, 2, 3, 4, 5, 6, 7, 8, 9, 10]
def Ex.low : List ℚ := [1, 1, 1, 1, 1/2, 1/2, 0, 0, 0, 0]
def Ex.high : List ℚ := [0, 0, 0, 0, 1/2, 1/2, 1, 1, 1, 1]
def Ex.extF : Ext ℚ :=
  { disc := fun _ _ => .ok (2, Ex.tens, [Ex.low, Ex.high]), fmt := fun _ => "",
    trunc := fun _ => .error .valueError, order := id }
def Ex.xsF : List (String × Column ℚ) := [("width", .floats Ex.tens)]
def Ex.ysF : List (String × Column ℚ) :=
  [("class", .strs ["no", "no", "no", "no", "no", "yes", "yes", "yes", "yes", "yes"])]
def Ex.estF : Estimator ℚ := (Estimator.fit Ex.conf Ex.extF Ex.xsF Ex.ysF Ex.est0).2
theorem Ex.estF_fit : Estimator.fit Ex.conf Ex.extF Ex.xsF Ex.ysF Ex.est0 = (.ok (), Ex.estF) :=
  Ex.pair_of _ (by decide +kernel)

theorem Ex.width_numeric : (Column.floats Ex.tens).isDiscrete Ex.conf = false := by decide +kernel

theorem Ex.estF_readable : Spec.Readable Ex.conf Ex.extF (Ex.xsF ++ Ex.ysF) := by
  refine readable_default rfl (by decide) (by decide) ?_ ?_
  · intro p hp hd c hc
    simp only [Ex.xsF, Ex.ysF, List.cons_append, List.nil_append, List.mem_cons, List.not_mem_nil, or_false] at hp
    rcases hp with rfl | rfl
    · rw [Ex.width_numeric] at hd; cases hd
    · simp only [Spec.cells, List.map_cons, List.map_nil, List.mem_cons, List.not_mem_nil,
        or_false] at hc
      rcases hc with rfl | rfl | rfl | rfl | rfl | rfl | rfl | rfl | rfl | rfl <;> simp only [Cell.text] <;> decide
  · intro p hp hd a b ha
    simp only [Ex.xsF, Ex.ysF, List.cons_append, List.nil_append, List.mem_cons, List.not_mem_nil, or_false] at hp
    rcases hp with rfl | rfl
    · rw [Ex.width_numeric] at hd; cases hd
    · simp [Spec.cells] at ha

theorem Ex.tens_asc : Ex.tens.Pairwise fun a b => (a <? b) = true := by decide +kernel

/-- C45 on a number: 9/2 is between "low" and half and half. -/
example := C45_number_partial (x' := Ex.extF) Ex.est0_new .start (fun _ => .refl _) Ex.estF_readable Ex.estF_fit
  .start (q := ("width", .floats Ex.tens)) (by simp [Ex.xsF]) Ex.width_numeric (n := 2) rfl Ex.tens_asc (by decide)
  (u := .float (9/2)) (.inl rfl) (A := fun i => if i = 0 then 3/4 else 1/4) (by
    intro i mb hi h
    have : (fuzzySet (9/2 : ℚ) Ex.low Ex.tens).toOption = some (3/4) ∧
        (fuzzySet (9/2 : ℚ) Ex.high Ex.tens).toOption = some (1/4) := by decide +kernel
    have conv : ∀ {r : Except Err ℚ} {a}, r.toOption = some a → r = .ok a := by
      intro r a h; cases r <;> cases h; rfl
    rcases i with _ | _ | i
    · cases h; exact conv this.1
    · cases h; exact conv this.2
    · omega)

end PyFCM
