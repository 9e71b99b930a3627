import Verif.Lemmas.Moves
import Verif.Props.VecPredict
/-
C107: what a row to be predicted sets, and that the order of its cells does not matter.
-/
namespace PyFCM
open Arith

set_option linter.unusedSectionVars false

variable {α : Type} [Arith α]

/-- The text under which a cell is looked up in a discrete column. -/
inductive Spec.Looks (x : Ext α) : Cell α → String → Prop
  | str (s : String) : Spec.Looks x (.str s) s
  | int (i : Int) : Spec.Looks x (.int i) (toString i)
  | yes : Spec.Looks x (.bool true) "1"
  | no : Spec.Looks x (.bool false) "0"
  | float (v : α) (i : Int) : x.trunc v = .ok i → Spec.Looks x (.float v) (toString i)

/-- The number a cell stands for in a continuous column. -/
inductive Spec.Stands : Cell α → α → Prop
  | float (v : α) : Spec.Stands (.float v) v
  | int (i : Int) : Spec.Stands (.int i) (lit i)
  | yes : Spec.Stands (.bool true) (lit 1)
  | no : Spec.Stands (.bool false) (lit 0)

theorem looks_iff {x : Ext α} {u : Cell α} {k : String} : Spec.Looks x u k ↔ u.key x = .ok k := by
  constructor
  · rintro (_ | _ | _ | _ | ⟨v, i, h⟩)
    · rfl
    · rfl
    · rfl
    · rfl
    · show (do let i ← x.trunc v; return toString i : Except Err String) = _
      rw [h]; rfl
  · intro h
    cases u with
    | str s => cases h; exact .str _
    | int i => cases h; exact .int _
    | bool b => cases b <;> cases h; exacts [.no, .yes]
    | float v =>
      change (do let i ← x.trunc v; return toString i : Except Err String) = _ at h
      cases hv : x.trunc v with
      | error e => rw [hv] at h; cases h
      | ok i => rw [hv] at h; cases h; exact .float v i hv

theorem stands_iff {u : Cell α} {v : α} : Spec.Stands u v ↔ u.num = .ok v := by
  constructor
  · rintro (_ | _ | _ | _) <;> rfl
  · intro h
    cases u with
    | str s => cases h
    | int i => cases h; exact .int _
    | bool b => cases b <;> cases h; exacts [.no, .yes]
    | float v => cases h; exact .float _

/-- The row has at most one cell per column and the separator does not occur too early in the text of a cell. -/
structure Spec.LegibleRow (cfg : GenConf α) (x : Ext α) (cols : List (String × Column α)) (row : List (String × Cell α)) : Prop where
  columns : (row.map (·.1)).Nodup
  texts : ∀ p ∈ row, ∀ q ∈ cols, q.1 = p.1 → q.2.isDiscrete cfg = true → ∀ k, Spec.Looks x p.2 k →
    ¬ cfg.separator.toList <:+: k.toList ++ cfg.separator.toList.dropLast

theorem Spec.LegibleRow.perm {cfg : GenConf α} {x : Ext α} {cols : List (String × Column α)} {row row' : List (String × Cell α)}
    (h : Spec.LegibleRow cfg x cols row) (hp : row.Perm row') : Spec.LegibleRow cfg x cols row' :=
  ⟨(hp.map _).nodup_iff.1 h.columns, fun p hp' => h.texts p (hp.mem_iff.2 hp')⟩

section fitted
variable [Ordered α] {cfg : GenConf α} {x x' : Ext α} {xs ys : List (String × Column α)} {e0 e e1 : Estimator α} {b : Bool}

/-- The calls made for a cell are about its own column. -/
theorem cellMoves_of (hn : Spec.New e0) (h : Spec.Hist cfg e0 b e) (hx : ∀ l, (x.order l).Perm l)
    (hr : Spec.Readable cfg x (xs ++ ys)) (hf : Estimator.fit cfg x xs ys e = (.ok (), e1)) {p : String × Cell α}
    {l : List (String × α)} (hl : cellMoves cfg x' e1.features p = .ok l) : ∃ q ∈ xs ++ ys, q.1 = p.1 ∧
      (q.2.isDiscrete cfg = true ∧ (∃ k, Spec.Looks x' p.2 k ∧ l = [(k ++ cfg.separator ++ p.1, lit 1)]) ∨
      q.2.isDiscrete cfg = false ∧ ∃ v, Spec.Stands p.2 v ∧ (∀ r ∈ l, r.2 = v) ∧
        ∀ c, c ∈ l.map (·.1) ↔ Spec.ConceptOf cfg x q c) := by
  have hj := joinColumns_disjoint hr.columns
  have hkeys := (C55_refit hn h hx (hj ▸ hr.columns) hf).2.2
  obtain ⟨-, -, -, hfit⟩ := fit_fitted hn h hx (hj ▸ hr) hf
  rw [hj] at hfit hkeys
  unfold cellMoves at hl
  cases hF : e1.features.get? p.1 with
  | none => rw [hF] at hl; cases hl
  | some F =>
    rw [hF] at hl
    have hm : p.1 ∈ (xs ++ ys).map (·.1) := by rw [← hkeys]; exact Dict.mem_keys_of_get? hF
    obtain ⟨q, hq, hqe⟩ := List.mem_map.1 hm
    refine ⟨q, hq, hqe, ?_⟩
    obtain ⟨F', cs, hFt⟩ := hfit q hq
    have hg := hFt.get
    rw [hqe, hF] at hg
    cases hg
    have hfo := hFt.feat
    have hmn := mem_names hfo
    unfold FeatureOf at hfo
    dsimp only at hl
    split at hfo <;> rename_i hd
    · obtain ⟨ht, -⟩ := hfo
      rw [if_neg (by rw [ht]; split <;> decide)] at hl
      cases hk : p.2.key x' with
      | error er => rw [hk] at hl; cases hl
      | ok k => rw [hk] at hl; cases hl; exact .inl ⟨hd, k, looks_iff.2 hk, rfl⟩
    · obtain ⟨_, _, _, -, -, ht, -⟩ := hfo
      rw [if_pos (by rw [ht]; split <;> decide)] at hl
      cases hv : p.2.num with
      | error er => rw [hv] at hl; cases hl
      | ok v =>
        rw [hv] at hl
        cases hl
        refine .inr ⟨by simpa using hd, v, stands_iff.2 hv, fun r hr => ?_, fun c => ?_⟩
        · obtain ⟨c, -, rfl⟩ := List.mem_map.1 hr
          rfl
        · rw [List.map_map]
          simpa [Function.comp_def] using hmn c

/-- The calls made for a legible row agree with each other. -/
theorem moves_agree (hn : Spec.New e0) (h : Spec.Hist cfg e0 b e) (hx : ∀ l, (x.order l).Perm l)
    (hr : Spec.Readable cfg x (xs ++ ys)) (hf : Estimator.fit cfg x xs ys e = (.ok (), e1)) {row : List (String × Cell α)}
    (hrow : Spec.LegibleRow cfg x' (xs ++ ys) row) {ls : List (List (String × α))}
    (hls : List.Forall₂ (fun p l => cellMoves cfg x' e1.features p = .ok l) row ls) (K : List String) :
    ls.flatten.Pairwise (Agree K) := by
  rw [List.pairwise_flatten]
  constructor
  · intro l hl
    obtain ⟨i, hi, rfl⟩ := List.mem_iff_getElem.1 hl
    obtain ⟨hlen, hat⟩ := List.forall₂_iff_get.1 hls
    obtain ⟨q, -, -, ⟨-, k, -, hk⟩ | ⟨-, v, -, hv, -⟩⟩ := cellMoves_of (x' := x') hn h hx hr hf (hat i (by omega) hi)
    · have : ls[i] = _ := hk
      rw [this]
      exact List.pairwise_singleton _ _
    · refine List.pairwise_iff_getElem.2 fun a b ha hb _ _ _ => ?_
      rw [hv _ (List.getElem_mem ha), hv _ (List.getElem_mem hb)]
  · refine List.pairwise_iff_getElem.2 fun i j hi hj hij r hr1 t ht e1' _ => ?_
    obtain ⟨hlen, hat⟩ := List.forall₂_iff_get.1 hls
    have hne : (row[i]'(by omega)).1 ≠ (row[j]'(by omega)).1 := by
      have := List.pairwise_iff_getElem.1 hrow.columns i j (by simpa using by omega) (by simpa using by omega) hij
      simpa using this
    have hparse : ∀ p ∈ row, ∀ q ∈ xs ++ ys, q.1 = p.1 → ∀ (l : List (String × α)) r, r ∈ l →
        (q.2.isDiscrete cfg = true ∧ (∃ k, Spec.Looks x' p.2 k ∧ l = [(k ++ cfg.separator ++ p.1, lit 1)]) ∨
        q.2.isDiscrete cfg = false ∧ ∃ v, Spec.Stands p.2 v ∧ (∀ r ∈ l, r.2 = v) ∧
          ∀ c, c ∈ l.map (·.1) ↔ Spec.ConceptOf cfg x q c) → ∃ s, featureAndInfo cfg r.1 = .ok (p.1, s) := by
      rintro p hp q hq hqe l r hrl (⟨hd, k, hk, rfl⟩ | ⟨hd, v, -, -, hv⟩)
      · obtain rfl := List.mem_singleton.1 hrl
        refine ⟨k, (C41_parse_partial cfg p.1 k).2 ⟨hr.sep, hrow.texts p hp q hq hqe hd k hk, ?_⟩⟩
        rw [← hqe]
        exact hr.feats q hq
      · obtain ⟨s, hs⟩ := ((hv r.1).1 (List.mem_map_of_mem hrl)).parse hr hq
        exact ⟨s, by rw [← hqe]; exact hs⟩
    obtain ⟨q1, m1, m2, m3⟩ := cellMoves_of (x' := x') hn h hx hr hf (hat i (by omega) hi)
    obtain ⟨q2, k1, k2, k3⟩ := cellMoves_of (x' := x') hn h hx hr hf (hat j (by omega) hj)
    obtain ⟨s1, p1⟩ := hparse _ (List.getElem_mem _) q1 m1 m2 _ r hr1 m3
    obtain ⟨s2, p2⟩ := hparse _ (List.getElem_mem _) q2 k1 k2 _ t ht k3
    rw [e1', p2] at p1
    exact absurd (Prod.mk.inj (Except.ok.inj p1)).1.symm hne

/-- Rows with the same cells in another order are entered alike. -/
theorem initRow_perm (hn : Spec.New e0) (h : Spec.Hist cfg e0 b e) (hx : ∀ l, (x.order l).Perm l)
    (hr : Spec.Readable cfg x (xs ++ ys)) (hf : Estimator.fit cfg x xs ys e = (.ok (), e1)) {row row' : List (String × Cell α)}
    (hrow : Spec.LegibleRow cfg x' (xs ++ ys) row) (hp : row.Perm row') {m m' : FCM α} (hm : Carried m)
    (hi : initRow cfg x' e1.features row m = (.ok (), m')) : initRow cfg x' e1.features row' m = (.ok (), m') := by
  obtain ⟨ls, h1, h2⟩ := initRow_moves.1 hi
  obtain ⟨ls', h3, h4⟩ := List.perm_comp_forall₂ hp.symm h1
  exact initRow_moves.2 ⟨ls', h3, enter_perm h4.symm.flatten hm (moves_agree hn h hx hr hf hrow h1 _) h2⟩

theorem Sound.kept {m : FCM α} (h : Sound m) : Carried m := fun c hc => (h.sameKeys c).1 hc

theorem clear_calm {m m1 : FCM α} (hm : Sound m) (h1 : FCM.clearExecution m = (.ok (), m1)) : Calm m m1 := by
  have qk : Quiet m m1 := by have := clear_quiet m; rwa [h1] at this
  have ik : Inv m1 := by have := Op.clearExecution.pres m hm.inv; simp only [Op.run] at this; rwa [h1] at this
  exact ⟨hm.quiet ik qk (clear_ekeys hm h1), qk, clear_ekeys hm h1⟩

theorem predictRow_cells (hn : Spec.New e0) (h : Spec.Hist cfg e0 b e) (hx : ∀ l, (x.order l).Perm l)
    (hr : Spec.Readable cfg x (xs ++ ys)) (hf : Estimator.fit cfg x xs ys e = (.ok (), e1)) {row row' : List (String × Cell α)}
    (hrow : Spec.LegibleRow cfg x' (xs ++ ys) row) (hp : row.Perm row') {m : FCM α} (hm : Sound m) :
    predictRow cfg x' e1.features row' m = predictRow cfg x' e1.features row m ∨
      ∃ k k', predictRow cfg x' e1.features row m = (.error (.exc "Cannot init concept"), k) ∧
        predictRow cfg x' e1.features row' m = (.error (.exc "Cannot init concept"), k') := by
  obtain ⟨m1, h1⟩ := clear_total m
  have hk := (clear_calm hm h1).sound.kept
  have hrun : ∀ row, predictRow cfg x' e1.features row m = match initRow cfg x' e1.features row m1 with
      | (.ok (), m2) => inferenceResult cfg e1.features m2
      | (.error er, m2) => (.error er, m2) := by
    intro row
    unfold predictRow
    rw [PyM.run_bind, h1]
    dsimp only
    rw [PyM.run_bind]
    rcases initRow cfg x' e1.features row m1 with ⟨_ | ⟨⟩, m2⟩ <;> rfl
  rw [hrun, hrun]
  rcases hi : initRow cfg x' e1.features row m1 with ⟨er | ⟨⟩, m2⟩
  · rcases hi' : initRow cfg x' e1.features row' m1 with ⟨er' | ⟨⟩, m2'⟩
    · obtain rfl := initRow_error hi
      obtain rfl := initRow_error hi'
      exact .inr ⟨m2, m2', rfl, rfl⟩
    · rw [initRow_perm hn h hx hr hf (hrow.perm hp) hp.symm hk hi'] at hi
      cases hi
  · rw [initRow_perm hn h hx hr hf hrow hp hk hi]
    exact .inl rfl

theorem predictRows_cells (hn : Spec.New e0) (h : Spec.Hist cfg e0 b e) (hx : ∀ l, (x.order l).Perm l)
    (hr : Spec.Readable cfg x (xs ++ ys)) (hf : Estimator.fit cfg x xs ys e = (.ok (), e1)) :
    ∀ {rows rows' : List (List (String × Cell α))} {m : FCM α}, (∀ r ∈ rows, Spec.LegibleRow cfg x' (xs ++ ys) r) →
    List.Forall₂ List.Perm rows rows' → Sound m →
    predictRows cfg x' e1.features rows' m = predictRows cfg x' e1.features rows m ∨
      ∃ k k', predictRows cfg x' e1.features rows m = (.error (.exc "Cannot init concept"), k) ∧
        predictRows cfg x' e1.features rows' m = (.error (.exc "Cannot init concept"), k')
  | [], [], m, _, _, _ => .inl rfl
  | [], _ :: _, _, _, h, _ => by cases h
  | _ :: _, [], _, _, h, _ => by cases h
  | r :: rs, r' :: rs', m, hl, hpp, hm => by
    obtain ⟨hp, hps⟩ := List.forall₂_cons.1 hpp
    unfold predictRows
    rw [PyM.run_bind, PyM.run_bind]
    rcases predictRow_cells (x' := x') hn h hx hr hf (hl r (by simp)) hp hm with he | ⟨k, k', h1, h2⟩
    · rw [he]
      rcases hc : predictRow cfg x' e1.features r m with ⟨er | p, m1⟩
      · exact .inl rfl
      · dsimp only
        rw [PyM.run_bind, PyM.run_bind]
        obtain ⟨s1, -, -⟩ := predictRow_calm hm hc
        rcases predictRows_cells hn h hx hr hf (fun r hr => hl r (by simp [hr])) hps s1 with he | ⟨k, k', h1, h2⟩
        · rw [he]; exact .inl rfl
        · rw [h1, h2]; exact .inr ⟨k, k', rfl, rfl⟩
    · rw [h1, h2]; exact .inr ⟨k, k', rfl, rfl⟩

/-- C107: the order of the cells of a row does not change what `predict` does (also not the map it leaves behind, if it returns). -/
theorem C107_order (hn : Spec.New e0) (h : Spec.Hist cfg e0 b e) (hx : ∀ l, (x.order l).Perm l)
    (hr : Spec.Readable cfg x (xs ++ ys)) (hf : Estimator.fit cfg x xs ys e = (.ok (), e1)) {e2 : Estimator α}
    (hs : Spec.Since cfg e1 e2) {rows rows' : List (List (String × Cell α))} (hl : ∀ r ∈ rows, Spec.LegibleRow cfg x' (xs ++ ys) r)
    (hp : List.Forall₂ List.Perm rows rows') :
    (Estimator.predict cfg x' rows' e2).1 = (Estimator.predict cfg x' rows e2).1 ∧
      ∀ ps e3, Estimator.predict cfg x' rows e2 = (.ok ps, e3) → Estimator.predict cfg x' rows' e2 = (.ok ps, e3) := by
  have s1 := fit_sound (h.ok hn).1 hf
  obtain ⟨-, hgen⟩ := (hs.hist h hf).ok hn
  unfold Estimator.predict
  rw [if_pos hgen, if_pos hgen, hs.same.1]
  rcases predictRows_cells (x' := x') hn h hx hr hf hl hp (hs.sound s1) with he | ⟨k, k', h1, h2⟩
  · rw [he]
    exact ⟨rfl, fun _ _ h => h⟩
  · rw [h1, h2]
    exact ⟨rfl, fun _ _ h => by cases h⟩

end fitted

/-- The activation a legible row gives to a concept of the map. -/
def Spec.Sets (cfg : GenConf ℝ) (x x' : Ext ℝ) (cols : List (String × Column ℝ)) (row : List (String × Cell ℝ)) (c : String) (a : ℝ) :
    Prop :=
  (∃ p ∈ row, ∃ q ∈ cols, q.1 = p.1 ∧ q.2.isDiscrete cfg = true ∧ (∃ k, Spec.Looks x' p.2 k ∧ c = k ++ cfg.separator ++ p.1) ∧ a = 1) ∨
  (∃ p ∈ row, ∃ q ∈ cols, q.1 = p.1 ∧ q.2.isDiscrete cfg = false ∧ ∃ v, Spec.Stands p.2 v ∧
    ∃ n vl memb, x.disc q.1 (Spec.numbers q.2) = .ok (n, vl, memb) ∧ ∃ (i : Nat) (mb : List ℝ), memb[i]? = some mb ∧
      c = toString i ++ cfg.separator ++ p.1 ∧ (0 ≤ v → Spec.Interp vl mb v a)) ∨
  ((∀ p ∈ row, ∀ q ∈ cols, q.1 = p.1 → (∀ k, q.2.isDiscrete cfg = true → Spec.Looks x' p.2 k → c ≠ k ++ cfg.separator ++ p.1) ∧
    (q.2.isDiscrete cfg = false → ¬ Spec.ConceptOf cfg x q c)) ∧ a = 0)

/-- C107: what a row sets. -/
theorem C107_start {env : ClusterEnv ℝ} (he : Spec.Env env) {s : String} (hs : Spec.Strategy s) {cfg : GenConf ℝ}
    (hi : cfg.inferType = true) {x x' : Ext ℝ} {xs ys : List (String × Column ℝ)} {e0 e e1 e2 : Estimator ℝ} {b : Bool}
    (hn : Spec.New e0) (h : Spec.Hist cfg e0 b e) (hx : ∀ l, (x.order l).Perm l)
    (hr : Spec.Readable cfg (x.standard env s) (xs ++ ys))
    (hf : Estimator.fit cfg (x.standard env s) xs ys e = (.ok (), e1)) (hfn : e0.fcm.default.fn.name ≠ "fuzzy")
    (hsince : Spec.Since cfg e1 e2) {row : List (String × Cell ℝ)} (hu : Spec.UsableRow cfg x' (xs ++ ys) row)
    (hl : Spec.LegibleRow cfg x' (xs ++ ys) row) :
    ∃ A, Spec.RowStart cfg x' e2 row A ∧ ∀ c ∈ e2.fcm.topology.keys, Spec.Sets cfg (x.standard env s) x' (xs ++ ys) row c (A c) := by
  have s1 := fit_sound (h.ok hn).1 hf
  have s2 := hsince.sound s1
  obtain ⟨hfe, hv⟩ := hsince.same
  obtain ⟨m1, m2, c1, c2, -⟩ := started (x' := x') he hs hi hn h hx hr hf hfn s2 hv hu
  refine ⟨Spec.at' m2.traj 0, ⟨m1, m2, c1, by rw [hfe]; exact c2, fun _ _ => rfl⟩, fun c hc => ?_⟩
  have hcalm := clear_calm s2 c1
  obtain ⟨ls, l1, l2⟩ := initRow_moves.1 c2
  have hag := moves_agree (x := x.standard env s) (x' := x') hn h hx hr hf hl l1 m1.topology.keys
  obtain ⟨-, sp1, sp2⟩ := enter_spec hag l2
  have hk1 : m1.topology.keys = e2.fcm.topology.keys := view_keys hcalm.quiet.view
  obtain ⟨n, hcn⟩ := Dict.exists_get?_of_mem (hk1 ▸ hc : c ∈ m1.topology.keys)
  obtain ⟨hlen, hat⟩ := List.forall₂_iff_get.1 l1
  have hj := joinColumns_disjoint hr.columns
  obtain ⟨-, -, hkc, -⟩ := fit_fitted (x := x.standard env s) hn h hx (hj ▸ hr) hf
  rw [hj, ← view_keys hv] at hkc
  have huniq : ∀ {q q' : String × Column ℝ}, q ∈ xs ++ ys → q' ∈ xs ++ ys → q.1 = q'.1 → q = q' := fun a b e =>
    List.inj_on_of_nodup_map hr.columns a b e
  have hworth2 : ∀ {c} (n : Node ℝ) {n2 : Node ℝ}, m1.topology.get? c = some n → e2.fcm.topology.get? c = some n2 →
      n.worth = n2.worth := by
    intro c n n2 h1 h2
    have := view_get hcalm.quiet.view c
    rw [h1, h2] at this
    have e : n.static = n2.static := Option.some.inj this
    funext v
    unfold Node.worth
    rw [show n.fn = n2.fn from (congrArg Node.fn e :), show n.fuzzyAct = n2.fuzzyAct from (congrArg Node.fuzzyAct e :)]
  have hworth : ∀ {c} (n : Node ℝ) {n2 : Node ℝ}, m1.topology.get? c = some n → e1.fcm.topology.get? c = some n2 →
      n.worth (lit 1) = n2.worth (lit 1) := by
    intro c n n2 h1 h2
    have := view_get (hcalm.quiet.view.trans hv) c
    rw [h1, h2] at this
    have e : n.static = n2.static := Option.some.inj this
    unfold Node.worth
    rw [show n.fn = n2.fn from (congrArg Node.fn e :), show n.fuzzyAct = n2.fuzzyAct from (congrArg Node.fuzzyAct e :)]
  by_cases hmem : c ∈ ls.flatten.map (·.1)
  · obtain ⟨r, hrm, rfl⟩ := List.mem_map.1 hmem
    obtain ⟨a, ha1, ha2, -⟩ := sp1 r hrm n hcn
    obtain ⟨l, hlm, hrl⟩ := List.mem_flatten.1 hrm
    obtain ⟨i, hi', rfl⟩ := List.mem_iff_getElem.1 hlm
    have hA : Spec.at' m2.traj 0 r.1 = a := by unfold Spec.at' FCM.traj; rw [ha2]; rfl
    rw [hA]
    have hpm := List.getElem_mem (l := row) (n := i) (by omega)
    obtain ⟨q, hq, hqe, ⟨hd, k, hk, hlk⟩ | ⟨hd, v, hvs, hvl, hvc⟩⟩ := cellMoves_of (x := x.standard env s) (x' := x') hn h hx hr hf (hat i (by omega) hi')
    · rw [show ls[i] = _ from hlk] at hrl
      obtain rfl := List.mem_singleton.1 hrl
      refine .inl ⟨_, hpm, q, hq, hqe, hd, ⟨k, hk, rfl⟩, ?_⟩
      obtain ⟨q', hq', hqc'⟩ := hkc _ hc
      have hp1 := (C41_parse_partial cfg (row.get ⟨i, by omega⟩).1 k).2
        ⟨hr.sep, hl.texts _ hpm q hq hqe hd k hk, by rw [← hqe]; exact hr.feats q hq⟩
      obtain ⟨t, hp2⟩ := hqc'.parse hr hq'
      have hp2 := hp1.symm.trans hp2
      have hqq : q' = q := huniq hq' hq ((Prod.mk.inj (Except.ok.inj hp2)).1.symm.trans hqe.symm)
      subst hqq
      obtain ⟨n1, f1, g1, g2, ⟨-, rfl⟩ | ⟨g3, -⟩⟩ := fitted_of he hs hi hn h hx hr hf hq hqc'
      · have := hworth n hcn g1
        rw [this] at ha1
        unfold Node.worth at ha1
        rw [g2] at ha1
        dsimp only at ha1
        rw [if_neg hfn] at ha1
        exact (Except.ok.inj ha1).symm.trans (by simp [Arith.lit])
      · rw [hd] at g3; cases g3
    · obtain ⟨k, vl, memb, m', d1, d2, d3, d4, -⟩ := C96_number (x' := x') he hs hi hn h hx hr hf hsince hq hd (u := .float v)
        (.inl rfl)
      have hcc := (hvc r.1).1 (List.mem_map_of_mem hrl)
      have hcc' := hcc
      unfold Spec.ConceptOf at hcc
      rw [if_neg (by simp [hd])] at hcc
      obtain ⟨k', vl', memb', d1', j, hj, hce⟩ := hcc
      rw [asFloats_numbers, d1] at d1'
      cases d1'
      have hjm : j < memb.length := by rw [d2.desc.shape.1]; exact hj
      refine .inr (.inl ⟨_, hpm, q, hq, hqe, hd, v, hvs, k, vl, memb, d1, j, memb[j], List.getElem?_eq_getElem hjm,
        by rw [hce]; exact congrArg _ hqe, fun hv0 => ?_⟩)
      obtain ⟨nd, e1', e2'⟩ := d4 hv0 j memb[j] (List.getElem?_eq_getElem hjm)
      rw [← hce] at e1'
      rw [hfe] at d3
      obtain ⟨l', y1, y2⟩ := (initByFeature_moves (p := (q.1, Cell.float v))).1 d3
      obtain ⟨q', hq', hqe', ⟨hd', -⟩ | ⟨-, v', z1, z2, z3⟩⟩ := cellMoves_of (x := x.standard env s) (x' := x') hn h hx hr hf y1
      · obtain rfl := huniq hq' hq hqe'
        rw [hd] at hd'; cases hd'
      · obtain rfl := huniq hq' hq hqe'
        have hvv : v' = v := by
          have h1 := stands_iff.1 z1
          exact (Except.ok.inj h1).symm
        subst hvv
        obtain ⟨r', hr', hre⟩ := List.mem_map.1 ((z3 r.1).2 hcc')
        obtain ⟨n2, hn2⟩ := Dict.exists_get?_of_mem hc
        obtain ⟨-, w1, -⟩ := enter_spec (m := e2.fcm) (l := l') (List.pairwise_iff_getElem.2 fun a b ha hb _ _ _ => by
          rw [z2 _ (List.getElem_mem ha), z2 _ (List.getElem_mem hb)]) y2
        obtain ⟨a', w2, -, n3, w3, w4⟩ := w1 r' hr' n2 (by rw [hre]; exact hn2)
        rw [hre, e1'] at w3
        cases w3
        have hvr : r.2 = v' := hvl r hrl
        have : n.worth r.2 = n2.worth r'.2 := by
          rw [hvr, z2 r' hr', hworth2 n hcn hn2]
        rw [this, w2] at ha1
        cases ha1
        rw [← w4]
        exact e2'
  · refine .inr (.inr ⟨fun p hp q hq hqe => ?_, ?_⟩)
    · obtain ⟨i, hi', rfl⟩ := List.mem_iff_getElem.1 hp
      obtain ⟨q', hq', hqe', hcases⟩ := cellMoves_of (x := x.standard env s) (x' := x') hn h hx hr hf (hat i hi' (by omega))
      obtain rfl := huniq hq' hq (hqe'.trans hqe.symm)
      have hin : ∀ y ∈ (ls.get ⟨i, by omega⟩).map (·.1), y ∈ ls.flatten.map (·.1) := fun y hy => by
        obtain ⟨r, hr, rfl⟩ := List.mem_map.1 hy
        exact List.mem_map_of_mem (List.mem_flatten.2 ⟨_, List.getElem_mem _, hr⟩)
      refine ⟨fun k hd hk e => hmem ?_, fun hd hcc => hmem ?_⟩
      · rcases hcases with ⟨-, k', hk', hlk⟩ | ⟨hd', -⟩
        · have : k' = k := Except.ok.inj ((looks_iff.1 hk').symm.trans (looks_iff.1 hk))
          subst this
          refine hin c ?_
          rw [hlk, e]
          exact List.mem_singleton.2 rfl
        · rw [hd] at hd'; cases hd'
      · rcases hcases with ⟨hd', -⟩ | ⟨-, v, -, -, hvc⟩
        · rw [hd] at hd'; cases hd'
        · exact hin c ((hvc c).2 hcc)
    · unfold Spec.at' FCM.traj
      rw [(sp2 c hmem).2]
      obtain ⟨-, kt, -, -, hin⟩ := forEach_touch ClearRel clearOne_touch s2.inv.tnd c1
      obtain ⟨n2, hn2⟩ := Dict.exists_get?_of_mem hc
      have := hin c hc
      rw [hn2] at this
      rw [this.2]
      simp [Arith.lit]

/-- C107 without the condition on the texts of the cells. -/
def C107_any (α : Type) [Arith α] : Prop :=
  ∀ (cfg : GenConf α) (x : Ext α) (xs ys : List (String × Column α)) (e0 e1 : Estimator α), Spec.New e0 →
    (∀ l, (x.order l).Perm l) → Spec.Readable cfg x (xs ++ ys) → Estimator.fit cfg x xs ys e0 = (.ok (), e1) →
    ∀ row row' : List (String × Cell α), (row.map (·.1)).Nodup → row.Perm row' →
      (Estimator.predict cfg x [row'] e1).1 = (Estimator.predict cfg x [row] e1).1

/-! ### Examples -/

/-- The clusters of "_b" are called "0____b" and "1____b", which is also how the value "0_" of "b" is looked up. -/
def Ex.xsU : List (String × Column ℚ) :=
  [("_b", .floats Ex.tens), ("b", .strs ["p", "q", "p", "q", "p", "q", "p", "q", "p", "q"])]
def Ex.estU : Estimator ℚ := (Estimator.fit Ex.conf Ex.extF Ex.xsU Ex.ysF Ex.est0).2
theorem Ex.estU_fit : Estimator.fit Ex.conf Ex.extF Ex.xsU Ex.ysF Ex.est0 = (.ok (), Ex.estU) := Ex.pair_of _ (by decide +kernel)

theorem Ex.estU_readable : Spec.Readable Ex.conf Ex.extF (Ex.xsU ++ Ex.ysF) := by
  refine readable_default rfl (by decide) (by decide) ?_ ?_
  · intro p hp hd c hc
    simp only [Ex.xsU, Ex.ysF, List.cons_append, List.nil_append, List.mem_cons, List.not_mem_nil, or_false] at hp
    rcases hp with rfl | rfl | rfl
    · rw [Ex.width_numeric] at hd; cases hd
    · simp only [Spec.cells, List.map_cons, List.map_nil, List.mem_cons, List.not_mem_nil, or_false] at hc
      rcases hc with rfl | rfl | rfl | rfl | rfl | rfl | rfl | rfl | rfl | rfl <;> simp only [Cell.text] <;> decide
    · simp only [Spec.cells, List.map_cons, List.map_nil, List.mem_cons, List.not_mem_nil, or_false] at hc
      rcases hc with rfl | rfl | rfl | rfl | rfl | rfl | rfl | rfl | rfl | rfl <;> simp only [Cell.text] <;> decide
  · intro p hp hd a b ha
    simp only [Ex.xsU, Ex.ysF, List.cons_append, List.nil_append, List.mem_cons, List.not_mem_nil, or_false] at hp
    rcases hp with rfl | rfl | rfl
    · rw [Ex.width_numeric] at hd; cases hd
    · simp [Spec.cells] at ha
    · simp [Spec.cells] at ha

theorem Ex.U_one : (Estimator.predict Ex.conf Ex.extF [[("_b", .float 10), ("b", .str "0_")]] Ex.estU).1.toOption =
    some [[("class", .str "no")]] := by decide +kernel
theorem Ex.U_two : (Estimator.predict Ex.conf Ex.extF [[("b", .str "0_"), ("_b", .float 10)]] Ex.estU).1.toOption =
    some [[("class", .str "yes")]] := by decide +kernel

/-- The value "0_" of "b" sets a cluster of the column "_b", and the prediction depends on which cell comes first. -/
theorem C107_counterexample : ¬ C107_any ℚ := by
  intro h
  have := h _ _ _ _ _ _ Ex.est0_new (fun _ => .refl _) Ex.estU_readable Ex.estU_fit [("_b", .float 10), ("b", .str "0_")]
    [("b", .str "0_"), ("_b", .float 10)] (by decide) (.swap _ _ _)
  have := (congrArg Except.toOption this).symm
  rw [Ex.U_one, Ex.U_two] at this
  exact absurd this (by decide)

theorem Ex.U_legible : Spec.LegibleRow Ex.conf Ex.extF (Ex.xsU ++ Ex.ysF) [("_b", .float 10), ("b", .str "p")] := by
  refine ⟨by decide, ?_⟩
  intro p hp q hq hqe hd k hk
  simp only [List.mem_cons, List.not_mem_nil, or_false] at hp
  rcases hp with rfl | rfl
  · exfalso
    simp only [Ex.xsU, Ex.ysF, List.cons_append, List.nil_append, List.mem_cons, List.not_mem_nil, or_false] at hq
    rcases hq with rfl | rfl | rfl
    · rw [Ex.width_numeric] at hd; cases hd
    · exact absurd hqe (by decide)
    · exact absurd hqe (by decide)
  · cases hk
    decide

/-- With values of the table this cannot happen. -/
example := C107_order (x' := Ex.extF) Ex.est0_new .start (fun _ => .refl _) Ex.estU_readable Ex.estU_fit
  (.predict .start Ex.extF [[("b", .str "q")]]) (rows := [[("_b", .float 10), ("b", .str "p")]])
  (rows' := [[("b", .str "p"), ("_b", .float 10)]]) (by intro r hr; obtain rfl := List.mem_singleton.1 hr; exact Ex.U_legible)
  (.cons (.swap _ _ _) .nil)
example : (Estimator.predict Ex.conf Ex.extF [[("_b", .float 10), ("b", .str "p")]] Ex.estU).1.toOption =
    some [[("class", .str "yes")]] := by decide +kernel

/-- Real arithmetic: the row sets "red___color" to 1 and the other concepts to 0. -/
example {e1 : Estimator ℝ}
    (hf : Estimator.fit Ex.realConf (Ex.realExt.standard exEnv "cmeans-gap") Ex.xsr Ex.ysr Ex.est0v = (.ok (), e1)) :=
  C107_start (x' := Ex.realExt) exEnv_ok (.inl rfl) rfl ⟨_, _, _, _, _, _, _, _, _, _, _, Ex.est0v_new⟩ .start (fun l => .refl _)
    Ex.r_readable hf (by decide) .start (row := [("color", .str "red")]) (by
      intro p hp
      obtain rfl := List.mem_singleton.1 hp
      exact ⟨("color", .strs ["red", "blue", "red"]), by simp [Ex.xsr], rfl, rfl⟩) ⟨by decide, by
      intro p hp q hq hqe hd k hk
      obtain rfl := List.mem_singleton.1 hp
      cases hk
      decide⟩

end PyFCM
