import Verif.Model.Draw
import Verif.Props.Plot
import Verif.Props.Cells
import Verif.Props.Strategies
/-
What `fit` and `predict` draw with plot=True, and that drawing changes nothing else (C108).
-/
namespace PyFCM
open Arith Spec

set_option linter.unusedSectionVars false

variable {α : Type} [Arith α]

/-! ### Specification -/

/-- Writing pictures: whatever is on the open figure ends up on the first one. -/
def Spec.written (p : Pictures α) : List (String × List (List α)) → Pictures α
  | [] => p
  | (f, cs) :: rest => ⟨[], p.files ++ (f, p.canvas ++ cs) :: rest⟩

theorem written_append (p : Pictures α) (l l' : List (String × List (List α))) :
    Spec.written (Spec.written p l) l' = Spec.written p (l ++ l') := by
  cases l with
  | nil => rfl
  | cons a l =>
    cases l' with
    | nil => simp [Spec.written]
    | cons b l' => simp [Spec.written]

/-- On an empty figure the pictures are written as they are. -/
theorem written_empty (files l : List (String × List (List α))) : Spec.written ⟨[], files⟩ l = ⟨[], files ++ l⟩ := by
  cases l with
  | nil => simp [Spec.written]
  | cons a l => rfl

/-- `n` clusters over the values `vl` can be drawn: there are at most ten colours, and the curves have one point per value. -/
def Spec.Drawable (n : Nat) (vl : List α) (memb : List (List α)) : Prop :=
  n ≤ 10 ∧ n ≤ memb.length ∧ ∀ r ∈ memb.take n, r.length = vl.length

/-- One picture per numeric column, in the order of the columns, with one curve per cluster. -/
def Spec.pictures (cfg : GenConf α) (x : Ext α) (dir : String) (cols : List (String × Column α)) :
    List (String × List (List α)) :=
  cols.filterMap fun p => if p.2.isDiscrete cfg then none else
    (x.disc p.1 p.2.asFloats).toOption.map fun r => (dir ++ "/" ++ p.1 ++ ".png", r.2.2.take r.1)

/-! ### One picture -/

theorem clustered_eq (cfg : GenConf α) (col : Column α) : col.clustered cfg = !col.isDiscrete cfg := by
  cases col <;> rfl

theorem plotLoop {vl : List α} {memb : List (List α)} : ∀ (j k : Nat) {p p' : Pictures α},
    PyM.forEach (List.range' k j) (plotCluster vl memb) p = (.ok (), p') ↔
      (∀ i, k ≤ i → i < k + j → i < 10 ∧ ∃ r, memb[i]? = some r ∧ r.length = vl.length) ∧
        p' = { p with canvas := p.canvas ++ (memb.drop k).take j }
  | 0, k, p, p' => by
    simp only [List.range'_zero, List.take_zero, List.append_nil]
    rw [PyM.forEach]
    constructor
    · intro h; cases h; exact ⟨fun i a b => by omega, rfl⟩
    · rintro ⟨-, rfl⟩; rfl
  | j + 1, k, p, p' => by
    rw [List.range'_succ, PyM.forEach]
    dsimp only
    have key : ∀ {s : Pictures α}, plotCluster vl memb k p = (.ok (), s) ↔
        (k < 10 ∧ ∃ r, memb[k]? = some r ∧ r.length = vl.length ∧ s = { p with canvas := p.canvas ++ [r] }) := by
      intro s
      unfold plotCluster
      simp only [PyM.run_bind, PyM.run_lift, pyIdx]
      cases hm : memb[k]? with
      | none => simp
      | some r =>
        dsimp only
        by_cases hk : k < 10
        · have : ∃ c, plotColors[k]? = some c := ⟨plotColors[k]'hk, List.getElem?_eq_getElem hk⟩
          obtain ⟨c, hc⟩ := this
          rw [hc]
          dsimp only [Pictures.plot]
          by_cases hl : r.length = vl.length
          · rw [if_pos hl]
            constructor
            · intro h; cases h; exact ⟨hk, r, rfl, hl, rfl⟩
            · rintro ⟨-, r', h, -, rfl⟩; cases h; rfl
          · rw [if_neg hl]
            constructor
            · intro h; cases h
            · rintro ⟨-, r', h, h', -⟩; cases h; exact absurd h' hl
        · have : plotColors[k]? = none := List.getElem?_eq_none (by show 10 ≤ k; omega)
          rw [this]
          constructor
          · intro h; cases h
          · rintro ⟨h, -⟩; exact absurd h hk
    constructor
    · intro h
      split at h
      · rename_i s hs
        obtain ⟨h10, r, hr, hl, rfl⟩ := key.1 hs
        obtain ⟨h1, h2⟩ := (plotLoop j (k + 1)).1 h
        refine ⟨fun i a b => ?_, ?_⟩
        · rcases Nat.eq_or_lt_of_le a with rfl | a
          · exact ⟨h10, r, hr, hl⟩
          · exact h1 i a (by omega)
        · rw [h2]
          obtain ⟨hlt, rfl⟩ := List.getElem?_eq_some_iff.1 hr
          rw [List.drop_eq_getElem_cons hlt, List.take_succ_cons]
          simp
      · cases h
    · rintro ⟨h1, rfl⟩
      obtain ⟨h10, r, hr, hl⟩ := h1 k (le_refl _) (by omega)
      rw [key.2 ⟨h10, r, hr, hl, rfl⟩]
      dsimp only
      refine (plotLoop j (k + 1)).2 ⟨fun i a b => h1 i (by omega) (by omega), ?_⟩
      obtain ⟨hlt, rfl⟩ := List.getElem?_eq_some_iff.1 hr
      rw [List.drop_eq_getElem_cons hlt, List.take_succ_cons]
      simp

theorem plotClusters_iff {dir att : String} {n : Nat} {vl : List α} {memb : List (List α)} {p p' : Pictures α} :
    plotClusters dir att n vl memb p = (.ok (), p') ↔
      Spec.Drawable n vl memb ∧ p' = Spec.written p [(dir ++ "/" ++ att ++ ".png", memb.take n)] := by
  have hd : (∀ i, 0 ≤ i → i < 0 + n → i < 10 ∧ ∃ r, memb[i]? = some r ∧ r.length = vl.length) ↔ Spec.Drawable n vl memb := by
    constructor
    · intro h
      have hn : n ≤ memb.length := by
        rcases Nat.eq_zero_or_pos n with rfl | hp
        · omega
        · obtain ⟨-, r, hr, -⟩ := h (n - 1) (by omega) (by omega)
          have := (List.getElem?_eq_some_iff.1 hr).1
          omega
      refine ⟨?_, hn, fun r hr => ?_⟩
      · rcases Nat.eq_zero_or_pos n with rfl | hp
        · omega
        · have := (h (n - 1) (by omega) (by omega)).1
          omega
      · obtain ⟨i, hi, rfl⟩ := List.getElem_of_mem hr
        rw [List.length_take] at hi
        obtain ⟨-, r, hr, hl⟩ := h i (by omega) (by omega)
        rw [List.getElem_take]
        rw [List.getElem?_eq_getElem (by omega)] at hr
        rw [Option.some.inj hr]
        exact hl
    · rintro ⟨h1, h2, h3⟩ i - hi
      refine ⟨by omega, memb[i], List.getElem?_eq_getElem (by omega), h3 _ ?_⟩
      rw [List.mem_take_iff_getElem]
      exact ⟨i, by omega, rfl⟩
  unfold plotClusters
  rw [PyM.run_bind, List.range_eq_range']
  constructor
  · intro h
    split at h
    · rename_i s hs
      obtain ⟨h1, rfl⟩ := (plotLoop n 0).1 hs
      refine ⟨hd.1 h1, ?_⟩
      cases h
      simp [Spec.written]
    · cases h
  · rintro ⟨h1, rfl⟩
    rw [(plotLoop n 0).2 ⟨hd.2 h1, rfl⟩]
    simp [Spec.written, Pictures.save, PyM.modify]

theorem drawColumn_iff {cfg : GenConf α} {x : Ext α} {dir : String} {q : String × Column α} {p p' : Pictures α} :
    drawColumn cfg x dir q.1 q.2 p = (.ok (), p') ↔
      (q.2.isDiscrete cfg = false → ∀ n vl memb, x.disc q.1 q.2.asFloats = .ok (n, vl, memb) → Spec.Drawable n vl memb) ∧
        p' = Spec.written p (Spec.pictures cfg x dir [q]) := by
  unfold drawColumn
  rw [clustered_eq]
  simp only [Spec.pictures, List.filterMap_cons, List.filterMap_nil]
  cases hd : q.2.isDiscrete cfg with
  | true =>
    simp only [Bool.not_true, Bool.false_eq_true, ↓reduceIte, PyM.run_pure, Spec.written]
    constructor
    · intro h; cases h; exact ⟨fun h => (by cases h), rfl⟩
    · rintro ⟨-, rfl⟩; rfl
  | false =>
    simp only [Bool.not_false, ↓reduceIte, Bool.false_eq_true]
    cases hx : x.disc q.1 q.2.asFloats with
    | error e =>
      simp only [PyM.run_pure, Except.toOption, Option.map_none, Spec.written]
      constructor
      · intro h; cases h; exact ⟨fun _ _ _ _ h => (by cases h), rfl⟩
      · rintro ⟨-, rfl⟩; rfl
    | ok r =>
      obtain ⟨n, vl, memb⟩ := r
      simp only [Except.toOption, Option.map_some]
      rw [plotClusters_iff]
      constructor
      · rintro ⟨h, rfl⟩; exact ⟨fun _ _ _ _ h' => by cases h'; exact h, rfl⟩
      · rintro ⟨h, rfl⟩; exact ⟨h trivial _ _ _ rfl, rfl⟩

/-! ### Learning -/

theorem onFirst_iff {σ τ β : Type} {f : PyM σ β} {s : σ × τ} {b : β} {s' : σ × τ} :
    onFirst f s = (.ok b, s') ↔ f s.1 = (.ok b, s'.1) ∧ s'.2 = s.2 := by
  unfold onFirst
  rcases hf : f s.1 with ⟨r, t⟩
  constructor
  · intro h
    simp only [Prod.mk.injEq] at h
    obtain ⟨rfl, rfl⟩ := h
    exact ⟨rfl, rfl⟩
  · rintro ⟨h, h'⟩
    obtain ⟨a, b⟩ := s'
    cases h; cases h'; rfl

theorem onSecond_iff {σ τ β : Type} {f : PyM τ β} {s : σ × τ} {b : β} {s' : σ × τ} :
    onSecond f s = (.ok b, s') ↔ f s.2 = (.ok b, s'.2) ∧ s'.1 = s.1 := by
  unfold onSecond
  rcases hf : f s.2 with ⟨r, t⟩
  constructor
  · intro h
    simp only [Prod.mk.injEq] at h
    obtain ⟨rfl, rfl⟩ := h
    exact ⟨rfl, rfl⟩
  · rintro ⟨h, h'⟩
    obtain ⟨a, b⟩ := s'
    cases h; cases h'; rfl

theorem bind_iffP {σ β γ : Type} {f : PyM σ β} {k : β → PyM σ γ} {s s' : σ} {c : γ} :
    (f >>= k) s = (.ok c, s') ↔ ∃ b s1, f s = (.ok b, s1) ∧ k b s1 = (.ok c, s') :=
  ⟨bind_okP, fun ⟨b, s1, h1, h2⟩ => by rw [PyM.run_bind, h1]; exact h2⟩

/-- Every numeric column can be drawn. -/
def Spec.AllDrawable (cfg : GenConf α) (x : Ext α) (cols : List (String × Column α)) : Prop :=
  ∀ q ∈ cols, q.2.isDiscrete cfg = false → ∀ n vl memb, x.disc q.1 q.2.asFloats = .ok (n, vl, memb) → Spec.Drawable n vl memb

theorem pictures_cons (cfg : GenConf α) (x : Ext α) (dir : String) (q : String × Column α) (cols : List (String × Column α)) :
    Spec.pictures cfg x dir (q :: cols) = Spec.pictures cfg x dir [q] ++ Spec.pictures cfg x dir cols := by
  unfold Spec.pictures
  rw [← List.filterMap_append]
  rfl

theorem buildFcmDrawn_iff {cfg : GenConf α} {x : Ext α} {dir : String} {ts : List String} :
    ∀ {cols : List (String × Column α)} {g g' : Gen α} {p p' : Pictures α},
    buildFcmDrawn cfg x dir ts cols (g, p) = (.ok (), (g', p')) ↔
      buildFcm cfg x ts cols g = (.ok (), g') ∧ Spec.AllDrawable cfg x cols ∧ p' = Spec.written p (Spec.pictures cfg x dir cols)
  | [], g, g', p, p' => by
    unfold buildFcmDrawn buildFcm
    constructor
    · intro h; cases h; exact ⟨rfl, fun q hq => (by cases hq), rfl⟩
    · rintro ⟨h, -, rfl⟩; cases h; rfl
  | (feat, col) :: cols, g, g', p, p' => by
    unfold buildFcmDrawn buildFcm
    rw [bind_iffP, bind_iffP, pictures_cons, ← written_append]
    constructor
    · rintro ⟨⟨⟩, s1, h1, h⟩
      obtain ⟨⟨⟩, s2, h2, h3⟩ := bind_okP h
      obtain ⟨k1, e1⟩ := onSecond_iff.1 h1
      obtain ⟨k2, e2⟩ := onFirst_iff.1 h2
      obtain ⟨g1, p1⟩ := s1
      obtain ⟨g2, p2⟩ := s2
      dsimp only at k1 e1 k2 e2
      subst e1 e2
      obtain ⟨a, rfl⟩ := (drawColumn_iff (q := (feat, col))).1 k1
      obtain ⟨i1, i2, rfl⟩ := buildFcmDrawn_iff.1 h3
      refine ⟨⟨_, _, k2, i1⟩, fun q hq => ?_, rfl⟩
      rcases List.mem_cons.1 hq with rfl | hq
      · exact a
      · exact i2 q hq
    · rintro ⟨⟨⟨⟩, g1, h1, h2⟩, h3, rfl⟩
      refine ⟨(), (g, _), onSecond_iff.2 ⟨(drawColumn_iff (q := (feat, col))).2 ⟨h3 _ (by simp), rfl⟩, rfl⟩, bind_iffP.2 ?_⟩
      exact ⟨(), (g1, _), onFirst_iff.2 ⟨h1, rfl⟩, buildFcmDrawn_iff.2 ⟨h2, fun q hq => h3 q (by simp [hq]), rfl⟩⟩

/-- C108: `fit(plot=True)` returns exactly if `fit` does and every numeric column can be drawn; it leaves the same estimator,
and it writes one picture per numeric column. -/
theorem C108_fit {cfg : GenConf α} {x : Ext α} {dir : String} {xs ys : List (String × Column α)} {e e' : Estimator α}
    {p p' : Pictures α} :
    Estimator.fitDrawn cfg x dir xs ys (e, p) = (.ok (), (e', p')) ↔
      Estimator.fit cfg x xs ys e = (.ok (), e') ∧ Spec.AllDrawable cfg x (joinColumns xs ys) ∧
        p' = Spec.written p (Spec.pictures cfg x dir (joinColumns xs ys)) := by
  unfold Estimator.fitDrawn Estimator.fit
  dsimp only
  rcases hr : Estimator.reset e with ⟨r, e1⟩
  cases r with
  | error err =>
    dsimp only
    constructor
    · intro h; cases h
    · rintro ⟨h, -⟩; cases h
  | ok _ =>
    dsimp only
    rcases hd : buildFcmDrawn cfg x dir (ys.map (·.1)) (joinColumns xs ys) (⟨e1.features, e1.processed, e1.fcm⟩, p) with ⟨r, g, q⟩
    rcases hb : buildFcm cfg x (ys.map (·.1)) (joinColumns xs ys) ⟨e1.features, e1.processed, e1.fcm⟩ with ⟨r', g'⟩
    rw [hd]
    cases r with
    | error err =>
      constructor
      · intro h; cases h
      · rintro ⟨h, h2, h3⟩
        rw [hb] at h
        cases r' with
        | error _ => cases h
        | ok _ =>
          have := buildFcmDrawn_iff (dir := dir) (p := p) (p' := p') |>.2 ⟨hb, h2, h3⟩
          rw [hd] at this
          cases this
    | ok _ =>
      obtain ⟨i1, i2, rfl⟩ := buildFcmDrawn_iff.1 hd
      rw [hb] at i1
      cases i1
      constructor
      · intro h; cases h; rw [hb]; exact ⟨rfl, i2, rfl⟩
      · rintro ⟨h, -, rfl⟩; rw [hb] at h; cases h; rfl

/-! ### Predicting -/

/-- The recorded trajectories of the target concepts. -/
def Spec.targetCurves (m : FCM α) : List (List α) :=
  (m.execution.filter fun t => ((m.topology.get? t.1).bind (·.type)).any fun ty => ty == TYPE_DECISION || ty == TYPE_REGRESOR).map (·.2)

theorem finalState_types {m : FCM α} : ∀ {cs : List String} {st : Dict α}, finalStateLoop m "target" [] cs = .ok st →
    ∀ c ∈ cs, ∃ n ty, m.topology.get? c = some n ∧ n.type = some ty
  | [], st, h => fun c hc => by cases hc
  | d :: cs, st, h => by
    intro c hc
    unfold finalStateLoop at h
    rw [if_neg (by simp)] at h
    obtain ⟨n, hn, h⟩ := except_bind_ok h
    obtain ⟨ty, ht, h⟩ := except_bind_ok h
    obtain ⟨_, -, h⟩ := except_bind_ok h
    obtain ⟨rest, h2, -⟩ := except_bind_ok h
    rcases List.mem_cons.1 hc with rfl | hc
    · cases hg : m.topology.get? c with
      | none => rw [hg] at hn; cases hn
      | some n' =>
        rw [hg] at hn
        cases hn
        cases hty : n.type with
        | none => rw [hty] at ht; cases ht
        | some ty => exact ⟨n, ty, rfl, hty⟩
    · exact finalState_types h2 c hc

theorem drawLoop {m : FCM α} : ∀ {ex : List (String × List α)} (p : Pictures α),
    (∀ t ∈ ex, ∃ n ty, m.topology.get? t.1 = some n ∧ n.type = some ty) →
    PyM.forEach ex (drawConcept m) p = (.ok (), { p with canvas := p.canvas ++ (ex.filter fun t =>
      ((m.topology.get? t.1).bind (·.type)).any fun ty => ty == TYPE_DECISION || ty == TYPE_REGRESOR).map (·.2) })
  | [], p, _ => by simp [PyM.forEach]
  | (c, xs) :: ex, p, h => by
    obtain ⟨n, ty, h1, h2⟩ := h (c, xs) (by simp)
    have key : drawConcept m (c, xs) p = (.ok (), { p with canvas := p.canvas ++
        if (ty == TYPE_DECISION || ty == TYPE_REGRESOR) then [xs] else [] }) := by
      unfold drawConcept
      simp only [PyM.run_bind, PyM.run_lift, curve_eq, h1, need, isDrawn, if_pos, h2]
      show (match (Except.ok (ty == TYPE_DECISION || ty == TYPE_REGRESOR), p) with
        | (.ok b, s) => (if b then Pictures.plot (Spec.shown 0 xs).length (Spec.shown 0 xs) else pure ()) s
        | (.error e, s) => (.error e, s)) = _
      dsimp only
      split
      · simp [Pictures.plot, Spec.shown]
      · simp
    rw [PyM.forEach]
    dsimp only
    rw [key]
    dsimp only
    rw [drawLoop _ fun t ht => h t (by simp [ht])]
    simp only [List.filter_cons, h1, Option.bind_some, h2, Option.any_some]
    split <;> simp

theorem drawExecution_ok {m : FCM α} {st : Dict α} (h : m.getFinalState = .ok st) (dir name : String) (p : Pictures α) :
    drawExecution m dir name p = (.ok (), Spec.written p [(dir ++ "/" ++ name ++ ".png", Spec.targetCurves m)]) := by
  unfold drawExecution
  rw [PyM.run_bind, drawLoop p fun t ht => finalState_types h t.1 (List.mem_map_of_mem ht)]
  rfl

theorem inferenceResultDrawn_eq (cfg : GenConf α) (fs : Dict (Feature α)) (dir : String) (m : FCM α) (p : Pictures α) :
    (inferenceResultDrawn cfg fs dir (m, p)).1 = (inferenceResult cfg fs m).1 ∧
    (inferenceResultDrawn cfg fs dir (m, p)).2.1 = (inferenceResult cfg fs m).2 ∧
    ∀ l m', inferenceResult cfg fs m = (.ok l, m') →
      (inferenceResultDrawn cfg fs dir (m, p)).2.2 = Spec.written p [(dir ++ "/fcm.png", Spec.targetCurves m')] := by
  have hn : dir ++ "/" ++ "fcm" ++ ".png" = dir ++ "/fcm.png" := by simp only [String.append_assoc]; rfl
  unfold inferenceResultDrawn inferenceResult
  simp only [PyM.run_bind, onFirst]
  rcases FCM.runInference true m with ⟨r, m1⟩
  cases r with
  | error e => exact ⟨rfl, rfl, fun l m' h => by cases h⟩
  | ok _ =>
    simp only [PyM.run_get, PyM.run_lift]
    cases hs : m1.getFinalState with
    | error e => exact ⟨rfl, rfl, fun l m' h => by cases h⟩
    | ok st =>
      dsimp only
      cases hg : groupResult cfg fs st [] with
      | error e => exact ⟨rfl, rfl, fun l m' h => by cases h⟩
      | ok gr =>
        simp only [onSecond, drawExecution_ok hs]
        refine ⟨trivial, trivial, fun l m' h => ?_⟩
        rw [hn, (Prod.mk.inj h).2]

theorem predictRowDrawn_eq (cfg : GenConf α) (x : Ext α) (fs : Dict (Feature α)) (dir : String) (row : List (String × Cell α))
    (m : FCM α) (p : Pictures α) :
    (predictRowDrawn cfg x fs dir row (m, p)).1 = (predictRow cfg x fs row m).1 ∧
    (predictRowDrawn cfg x fs dir row (m, p)).2.1 = (predictRow cfg x fs row m).2 ∧
    ∀ l m', predictRow cfg x fs row m = (.ok l, m') →
      (predictRowDrawn cfg x fs dir row (m, p)).2.2 = Spec.written p [(dir ++ "/fcm.png", Spec.targetCurves m')] := by
  unfold predictRowDrawn predictRow
  simp only [PyM.run_bind, onFirst]
  rcases FCM.clearExecution m with ⟨r, m1⟩
  cases r with
  | error e => exact ⟨rfl, rfl, fun l m' h => by cases h⟩
  | ok _ =>
    dsimp only
    rcases initRow cfg x fs row m1 with ⟨r, m2⟩
    cases r with
    | error e => exact ⟨rfl, rfl, fun l m' h => by cases h⟩
    | ok _ => exact inferenceResultDrawn_eq cfg fs dir m2 p

/-- The pictures of a series of rows: one for each row, of the map as the prediction of the row leaves it. -/
inductive Spec.RowCurves (cfg : GenConf α) (x : Ext α) (fs : Dict (Feature α)) :
    FCM α → List (List (String × Cell α)) → List (List (List α)) → Prop
  | nil {m : FCM α} : Spec.RowCurves cfg x fs m [] []
  | cons {m m1 : FCM α} {l : Dict Label} {row : List (String × Cell α)} {rows : List (List (String × Cell α))}
      {cs : List (List (List α))} : predictRow cfg x fs row m = (.ok l, m1) → Spec.RowCurves cfg x fs m1 rows cs →
      Spec.RowCurves cfg x fs m (row :: rows) (Spec.targetCurves m1 :: cs)

theorem predictRowsDrawn_eq (cfg : GenConf α) (x : Ext α) (fs : Dict (Feature α)) (dir : String) :
    ∀ (rows : List (List (String × Cell α))) (m : FCM α) (p : Pictures α),
    (predictRowsDrawn cfg x fs dir rows (m, p)).1 = (predictRows cfg x fs rows m).1 ∧
    (predictRowsDrawn cfg x fs dir rows (m, p)).2.1 = (predictRows cfg x fs rows m).2 ∧
    ∀ ls m', predictRows cfg x fs rows m = (.ok ls, m') → ∃ cs, Spec.RowCurves cfg x fs m rows cs ∧
      (predictRowsDrawn cfg x fs dir rows (m, p)).2.2 = Spec.written p (cs.map fun c => (dir ++ "/fcm.png", c))
  | [], m, p => ⟨rfl, rfl, fun ls m' h => ⟨[], .nil, rfl⟩⟩
  | r :: rs, m, p => by
    unfold predictRowsDrawn predictRows
    simp only [PyM.run_bind]
    obtain ⟨h1, h2, h3⟩ := predictRowDrawn_eq cfg x fs dir r m p
    rcases hd : predictRowDrawn cfg x fs dir r (m, p) with ⟨a, m1, p1⟩
    rcases hp : predictRow cfg x fs r m with ⟨a', m1'⟩
    rw [hd, hp] at h1 h2
    rw [hd] at h3
    dsimp only at h1 h2 h3
    subst h1 h2
    cases a with
    | error e => exact ⟨rfl, rfl, fun l m' h => by cases h⟩
    | ok l =>
      dsimp only
      have h3 := h3 l m1 hp
      obtain ⟨i1, i2, i3⟩ := predictRowsDrawn_eq cfg x fs dir rs m1 p1
      rcases hd' : predictRowsDrawn cfg x fs dir rs (m1, p1) with ⟨b, m2, p2⟩
      rcases hp' : predictRows cfg x fs rs m1 with ⟨b', m2'⟩
      rw [hd', hp'] at i1 i2
      rw [hd'] at i3
      dsimp only at i1 i2 i3
      subst i1 i2
      cases b with
      | error e => exact ⟨rfl, rfl, fun l m' h => by cases h⟩
      | ok ls =>
        refine ⟨rfl, rfl, fun _ _ _ => ?_⟩
        obtain ⟨cs, c1, c2⟩ := i3 ls m2 hp'
        refine ⟨_ :: cs, .cons hp c1, ?_⟩
        show p2 = _
        rw [c2, h3, written_append]
        rfl

/-- C108: `predict(plot=True)` returns or raises what `predict` does and leaves the same estimator … -/
theorem C108_predict (cfg : GenConf α) (x : Ext α) (dir : String) (rows : List (List (String × Cell α))) (e : Estimator α)
    (p : Pictures α) :
    (Estimator.predictDrawn cfg x dir rows (e, p)).1 = (Estimator.predict cfg x rows e).1 ∧
      (Estimator.predictDrawn cfg x dir rows (e, p)).2.1 = (Estimator.predict cfg x rows e).2 := by
  unfold Estimator.predictDrawn Estimator.predict
  dsimp only
  obtain ⟨h1, h2, -⟩ := predictRowsDrawn_eq cfg x e.features dir rows e.fcm p
  rcases hd : predictRowsDrawn cfg x e.features dir rows (e.fcm, p) with ⟨a, m1, p1⟩
  rw [hd] at h1 h2
  dsimp only at h1 h2
  split
  · rw [h1, h2]; exact ⟨rfl, rfl⟩
  · exact ⟨rfl, rfl⟩

/-- … and it writes one picture per row, each under the same name, with one curve per target concept. -/
theorem C108_pictures {cfg : GenConf α} {x : Ext α} {dir : String} {rows : List (List (String × Cell α))} {e e' : Estimator α}
    {p p' : Pictures α} {ls : List (Dict Label)} (h : Estimator.predictDrawn cfg x dir rows (e, p) = (.ok ls, (e', p'))) :
    ∃ cs, Spec.RowCurves cfg x e.features e.fcm rows cs ∧ cs.length = rows.length ∧
      p' = Spec.written p (cs.map fun c => (dir ++ "/fcm.png", c)) := by
  have hlen : ∀ {m : FCM α} {rows cs}, Spec.RowCurves cfg x e.features m rows cs → cs.length = rows.length := by
    intro m rows cs h
    induction h with
    | nil => rfl
    | cons _ _ ih => simp [ih]
  unfold Estimator.predictDrawn at h
  dsimp only at h
  obtain ⟨h1, h2, h3⟩ := predictRowsDrawn_eq cfg x e.features dir rows e.fcm p
  rcases hd : predictRowsDrawn cfg x e.features dir rows (e.fcm, p) with ⟨a, m1, p1⟩
  rw [hd] at h1 h2 h h3
  dsimp only at h1 h2 h3
  split at h
  · cases h
    obtain ⟨cs, c1, c2⟩ := h3 ls _ (Prod.ext h1.symm h2.symm)
    exact ⟨cs, c1, hlen c1, c2⟩
  · cases h

/-! ### The library's own discretization -/

/-- The strategies that look for at most seven clusters find at most seven. -/
theorem few_clusters {env : ClusterEnv ℝ} (he : Spec.Env env) {s : String} (hs : Spec.Strategy s) (hr : s ≠ "rl-cmeans")
    {name : String} {vals v : List ℝ} {k : Nat} {u : Option (List (List ℝ))} (h : discretize env 7 200 s name vals = .ok (k, v, u)) :
    k ≤ 7 := by
  rcases hs with rfl | hs | hs | hs
  · obtain ⟨h10, -⟩ := discretize_cases h
    obtain ⟨xs, ys, h1, h2⟩ := C104_gap h
    have hw : 7 < (uniq Arith.lt vals).length := by omega
    rw [if_pos hw] at h1
    have e7 : (lit ((7 : Nat) : Int) : ℝ) = 7 := by simp
    rw [e7] at h1
    rcases h2 with ⟨-, h2, -⟩ | ⟨-, h2, -⟩
    · obtain ⟨xs', ys', c1, -, -, -, c2⟩ := C50_points (values := env.image (uniq Arith.lt vals) 7) (mc := 7) (he.image _ _) (by norm_num)
      rw [h1] at c1
      cases c1
      have : (ys.length : ℝ) < 8 := by linarith
      have : ys.length < 8 := by exact_mod_cast this
      omega
    · omega
  · obtain ⟨-, -, h2⟩ := C90_discretize (.inl hs) h
    rcases h2 with ⟨h2, -⟩ | ⟨-, u', -, h2⟩
    · omega
    · exact h2.high
  · obtain ⟨-, -, h2⟩ := C90_discretize (.inr hs) h
    rcases h2 with ⟨h2, -⟩ | ⟨-, u', -, h2⟩
    · omega
    · exact h2.high
  · exact absurd hs hr

theorem standard_disc_inv {env : ClusterEnv ℝ} {s : String} {x : Ext ℝ} {name : String} {vals v : List ℝ} {k : Nat}
    {u : List (List ℝ)} (h : (x.standard env s).disc name vals = .ok (k, v, u)) :
    discretize env 7 200 s name vals = .ok (k, v, some u) := by
  obtain ⟨⟨k', v', u'⟩, h1, h2⟩ := except_bind_ok (show (discretize env 7 200 s name vals >>= _) = _ from h)
  rw [h1]
  cases u' with
  | none => cases h2
  | some u' => cases h2; rfl

/-- C108 with the library's own discretization: ten clusters can be drawn … -/
theorem C108_standard {env : ClusterEnv ℝ} (he : Spec.Env env) {s : String} (hs : Spec.Strategy s) {cfg : GenConf ℝ}
    (hi : cfg.inferType = true) {x : Ext ℝ} {dir : String} {xs ys : List (String × Column ℝ)} {e e' : Estimator ℝ} {p p' : Pictures ℝ} :
    Estimator.fitDrawn cfg (x.standard env s) dir xs ys (e, p) = (.ok (), (e', p')) ↔
      Estimator.fit cfg (x.standard env s) xs ys e = (.ok (), e') ∧
        (∀ q ∈ joinColumns xs ys, q.2.isDiscrete cfg = false → ∀ n vl memb,
          (x.standard env s).disc q.1 (Spec.numbers q.2) = .ok (n, vl, memb) → n ≤ 10) ∧
        p' = Spec.written p (Spec.pictures cfg (x.standard env s) dir (joinColumns xs ys)) := by
  rw [C108_fit]
  refine and_congr_right fun _ => and_congr_left fun _ => ?_
  constructor
  · intro h q hq hd n vl memb hx
    exact (h q hq hd n vl memb (by rw [asFloats_numbers]; exact hx)).1
  · intro h q hq hd n vl memb hx
    rw [asFloats_numbers] at hx
    obtain ⟨k, v, u, h1, h2, -⟩ := standard_disc he hs x q.1 hi hd
    rw [h1] at hx
    cases hx
    refine ⟨h q hq hd _ _ _ h1, h2.desc.shape.1.ge, fun r hr => h2.desc.shape.2 r (List.mem_of_mem_take hr)⟩

/-- … and only the robust strategy can find more, so with the others `fit(plot=True)` returns whenever `fit` does. -/
theorem C108_always {env : ClusterEnv ℝ} (he : Spec.Env env) {s : String} (hs : Spec.Strategy s) (hr : s ≠ "rl-cmeans") {cfg : GenConf ℝ}
    (hi : cfg.inferType = true) {x : Ext ℝ} (dir : String) {xs ys : List (String × Column ℝ)} {e e' : Estimator ℝ} (p : Pictures ℝ)
    (h : Estimator.fit cfg (x.standard env s) xs ys e = (.ok (), e')) :
    Estimator.fitDrawn cfg (x.standard env s) dir xs ys (e, p) =
      (.ok (), (e', Spec.written p (Spec.pictures cfg (x.standard env s) dir (joinColumns xs ys)))) :=
  (C108_standard he hs hi).2 ⟨h, fun q hq hd n vl memb hx => by have := few_clusters he hs hr (standard_disc_inv hx); omega, rfl⟩

/-! ### Examples -/

/-- A discretization into eleven clusters. -/
def Ex.extM : Ext ℚ := { Ex.extF with disc := fun _ _ => .ok (11, Ex.tens, List.replicate 11 (List.replicate 10 (1 / 11))) }

/-- C108 without the limit on the number of clusters. -/
def C108_any (α : Type) [Arith α] : Prop :=
  ∀ (cfg : GenConf α) (x : Ext α) (dir : String) (xs ys : List (String × Column α)) (e e' : Estimator α), Spec.New e →
    (∀ q ∈ joinColumns xs ys, ∀ n vl memb, x.disc q.1 q.2.asFloats = .ok (n, vl, memb) →
      memb.length = n ∧ ∀ r ∈ memb, r.length = vl.length) →
    Estimator.fit cfg x xs ys e = (.ok (), e') → ∃ p', Estimator.fitDrawn cfg x dir xs ys (e, ⟨[], []⟩) = (.ok (), (e', p'))

def Ex.drawnM : Except Err Unit × (Estimator ℚ × Pictures ℚ) :=
  Estimator.fitDrawn Ex.conf Ex.extM "." Ex.xsF Ex.ysF (Ex.est0, ⟨[], []⟩)
theorem Ex.drawnM_raises : Ex.drawnM.1 = .error .indexError := by decide +kernel
def Ex.estM : Estimator ℚ := (Estimator.fit Ex.conf Ex.extM Ex.xsF Ex.ysF Ex.est0).2
theorem Ex.estM_fit : Estimator.fit Ex.conf Ex.extM Ex.xsF Ex.ysF Ex.est0 = (.ok (), Ex.estM) := Ex.pair_of _ (by decide +kernel)

/-- There is no eleventh colour. -/
theorem C108_counterexample : ¬ C108_any ℚ := by
  intro h
  obtain ⟨p', hp⟩ := h Ex.conf Ex.extM "." Ex.xsF Ex.ysF Ex.est0 Ex.estM Ex.est0_new (by
    intro q _ n vl memb hx
    cases hx
    refine ⟨rfl, fun r hr => ?_⟩
    rw [List.eq_of_mem_replicate hr]
    rfl) Ex.estM_fit
  have hd : Ex.drawnM = (.ok (), (Ex.estM, p')) := hp
  have hr := Ex.drawnM_raises
  rw [hd] at hr
  cases hr

/-- The ten curves drawn before the exception stay on the figure … -/
theorem Ex.drawnM_canvas : Ex.drawnM.2.2 = ⟨List.replicate 10 (List.replicate 10 (1 / 11)), []⟩ := by decide +kernel

/-- … and the next picture, of another table with two clusters, shows them as well. -/
theorem C108_leak : (Estimator.fitDrawn Ex.conf Ex.extF "." Ex.xsF Ex.ysF Ex.drawnM.2).1 = .ok () ∧
    ((Estimator.fitDrawn Ex.conf Ex.extF "." Ex.xsF Ex.ysF Ex.drawnM.2).2.2.files.map fun f => (f.1, f.2.length)) =
      [("./width.png", 12)] := by decide +kernel

/-- On an empty figure there are two curves. -/
example : (Estimator.fitDrawn Ex.conf Ex.extF "." Ex.xsF Ex.ysF (Ex.est0, ⟨[], []⟩)).2.2 =
    ⟨[], Spec.pictures Ex.conf Ex.extF "." (joinColumns Ex.xsF Ex.ysF)⟩ := by decide +kernel
example : ((Spec.pictures Ex.conf Ex.extF "." (joinColumns Ex.xsF Ex.ysF)).map fun f => (f.1, f.2.length)) = [("./width.png", 2)] := by
  decide +kernel

/-- Two rows give two pictures under the same name. -/
example : ((Estimator.predictDrawn Ex.conf Ex.extF "out" [[("width", .float 2)], [("width", .float 9)]] (Ex.estF, ⟨[], []⟩)).2.2.files.map
    fun f => (f.1, f.2.length)) = [("out/fcm.png", 2), ("out/fcm.png", 2)] := by decide +kernel

/-- Real arithmetic: the numeric column "size" is drawn, and nothing else changes. -/
example : ∃ e1, Estimator.fit Ex.realConf (Ex.realExt.standard exEnv "cmeans-gap") Ex.xsn Ex.ysn Ex.est0r = (.ok (), e1) ∧
    ∃ p, Estimator.fitDrawn Ex.realConf (Ex.realExt.standard exEnv "cmeans-gap") "." Ex.xsn Ex.ysn (Ex.est0r, ⟨[], []⟩) = (.ok (), (e1, p)) := by
  obtain ⟨e1, h⟩ := Ex.n_fits
  exact ⟨e1, h, _, C108_always exEnv_ok (.inl rfl) (by decide) rfl "." ⟨[], []⟩ h⟩

end PyFCM
