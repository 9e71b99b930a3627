import Verif.Lemmas.VecStep
/-
Two maps with the same recurrence, settings and initial activations have the same runs, in either engine.
-/
namespace PyFCM
open Arith Spec

set_option linter.unusedSectionVars false

variable {α : Type} [Arith α]

theorem next_congr {N : Net α} {A B : String → α} {c : String} (hc : A c = B c) (hr : ∀ r ∈ N.rels, A r.origin = B r.origin) :
    next N A c = next N B c := by
  have hin : inputs N A c = inputs N B c := by
    unfold inputs
    apply List.filterMap_congr
    intro r h
    unfold along
    rw [hr r h]
  unfold next
  rw [hin, hc]

theorem IsRun.agree {N : Net α} {cs : List String} {f g : String → List α} {a b : Nat} (hf : IsRun N cs f a)
    (hg : IsRun N cs g b) (h0 : at' f 0 = at' g 0) (hout : ∀ c, c ∉ cs → f c = g c) (t : Nat) (ha : t < a) (hb : t < b) :
    at' f t = at' g t := by
  induction t with
  | zero => exact h0
  | succ t ih =>
    have e := ih (by omega) (by omega)
    funext c
    by_cases hc : c ∈ cs
    · have h1 := (hf c hc).2 t ha
      have h2 := (hg c hc).2 t hb
      rw [e, h2] at h1
      simpa using h1.symm
    · unfold at'; rw [hout c hc]

/-- A concept the map does not have has no trajectory. -/
theorem Inv.traj_nil {m : FCM α} (hm : Inv m) {d : String} (hd : d ∉ m.topology.keys) : m.traj d = [] := by
  have : m.execution.get? d = none := by
    rw [Dict.get?_eq_none_iff]
    exact fun hmem => hd (hm.sub d hmem)
  simp [FCM.traj, this]

/-- The maps agree in all that a run depends on. -/
structure Alike (m n : FCM α) : Prop where
  keys : n.topology.keys = m.topology.keys
  maxIter : n.maxIter = m.maxIter
  stop : n.stopAtStabilize = m.stopAtStabilize
  diff : n.stabilityDiff = m.stabilityDiff
  extra : n.extraSteps = m.extraSteps
  dec : n.decisionFn = m.decisionFn
  start : ∀ c ∈ m.topology.keys, at' n.traj 0 c = at' m.traj 0 c
  next : ∀ A, ∀ c ∈ m.topology.keys, next n.net A c = next m.net A c

theorem Alike.symm {m n : FCM α} (h : Alike m n) : Alike n m :=
  ⟨h.keys.symm, h.maxIter.symm, h.stop.symm, h.diff.symm, h.extra.symm, h.dec.symm,
   fun c hc => (h.start c (by rw [← h.keys]; exact hc)).symm,
   fun A c hc => (h.next A c (by rw [← h.keys]; exact hc)).symm⟩

/-- The same, whatever the order of the concepts. -/
structure Akin (m n : FCM α) : Prop where
  keys : ∀ c, c ∈ n.topology.keys ↔ c ∈ m.topology.keys
  maxIter : n.maxIter = m.maxIter
  stop : n.stopAtStabilize = m.stopAtStabilize
  diff : n.stabilityDiff = m.stabilityDiff
  extra : n.extraSteps = m.extraSteps
  dec : n.decisionFn = m.decisionFn
  start : ∀ c ∈ m.topology.keys, at' n.traj 0 c = at' m.traj 0 c
  next : ∀ A, ∀ c ∈ m.topology.keys, next n.net A c = next m.net A c

theorem Akin.symm {m n : FCM α} (h : Akin m n) : Akin n m :=
  ⟨fun c => (h.keys c).symm, h.maxIter.symm, h.stop.symm, h.diff.symm, h.extra.symm, h.dec.symm,
   fun c hc => (h.start c ((h.keys c).1 hc)).symm,
   fun A c hc => (h.next A c ((h.keys c).1 hc)).symm⟩

theorem Alike.akin {m n : FCM α} (h : Alike m n) : Akin m n :=
  ⟨fun c => by rw [h.keys], h.maxIter, h.stop, h.diff, h.extra, h.dec, h.start, h.next⟩

theorem IterRun.len_le {m n m' n' : FCM α} {a b : Nat} (h : Akin m n) (hm : IterRun m m' a) (hn : IterRun n n' b)
    (hagree : ∀ t, t < a → t < b → at' m'.traj t = at' n'.traj t) : b ≤ a := by
  apply Classical.byContradiction
  intro hlt
  have hab := hm.stops.above
  obtain ⟨s, h1, h2, h3⟩ := hn.stops.least a (by rw [h.extra]; exact hab) (by omega)
  rw [h.extra] at h1
  have hq := hm.stops.window s h1 h2
  apply h3
  unfold Quiet at hq ⊢
  rw [h.maxIter, h.stop, h.diff]
  rcases hq with hq | ⟨q1, q2, q3⟩
  · exact .inl hq
  · refine .inr ⟨q1, q2, ?_⟩
    unfold Calm at q3 ⊢
    rw [← hagree (s - 1) (by omega) (by omega), ← hagree (s - 2) (by omega) (by omega)]
    exact fun c hc => q3 c ((h.keys c).1 hc)

/-- Iterative engine. -/
theorem iter_akin {m n m' n' : FCM α} {a b : Nat} (h : Akin m n) (hm : IterRun m m' a) (hn : IterRun n n' b) :
    ∀ c, n'.traj c = m'.traj c ∧ n'.getConceptValue c = m'.getConceptValue c := by
  have rn : IsRun m.net m.topology.keys n'.traj b := by
    intro c hc
    have := hn.run c ((h.keys c).2 hc)
    exact ⟨this.1, fun t ht => by rw [← h.next _ c hc]; exact this.2 t ht⟩
  have hout : ∀ c, c ∉ m.topology.keys → m'.traj c = n'.traj c := by
    intro c hc
    rw [hm.inv.traj_nil (by rw [hm.keys]; exact hc), hn.inv.traj_nil (by rw [hn.keys, h.keys]; exact hc)]
  have h0 : at' m'.traj 0 = at' n'.traj 0 := by
    funext c
    by_cases hc : c ∈ m.topology.keys
    · rw [(hm.init c hc).2, (hn.init c ((h.keys c).2 hc)).2, h.start c hc]
    · unfold at'; rw [hout c hc]
  have hagree := fun t ha hb => IsRun.agree hm.run rn h0 hout t ha hb
  have h1 := IterRun.len_le h hm hn hagree
  have h2 := IterRun.len_le h.symm hn hm (fun t ha hb => (hagree t hb ha).symm)
  have hab : a = b := by omega
  subst hab
  have htr := IsRun.unique hm.run rn hout (fun c _ => congrFun h0 c)
  intro c
  refine ⟨(htr c).symm, ?_⟩
  by_cases hc : c ∈ m.topology.keys
  · obtain ⟨x, v, hx, hv, hd⟩ := hm.final c hc
    obtain ⟨y, w, hy, hw, he⟩ := hn.final c ((h.keys c).2 hc)
    rw [h.extra, h.dec, ← htr c, hd] at he
    cases he
    simp [FCM.getConceptValue, hx, hy, hv, hw]
  · have e1 : m'.topology.get? c = none := (Dict.get?_eq_none_iff _ _).2 (by rw [hm.keys]; exact hc)
    have e2 : n'.topology.get? c = none := (Dict.get?_eq_none_iff _ _).2 (by rw [hn.keys, h.keys]; exact hc)
    simp [FCM.getConceptValue, e1, e2]

theorem iter_congr {m n m' n' : FCM α} {a b : Nat} (h : Alike m n) (hm : IterRun m m' a) (hn : IterRun n n' b) :
    ∀ c, n'.traj c = m'.traj c ∧ n'.getConceptValue c = m'.getConceptValue c := iter_akin h.akin hm hn

/-! ### The vectorised engine -/

theorem start_eq {m n : FCM α} (h : Alike m n) : n.start = m.start := by
  unfold FCM.start
  rw [h.keys]
  exact List.map_congr_left fun c hc => h.start c hc

theorem cols_congr [Exact α] {m n : FCM α} (h : Alike m n) (hm : CleanInv m) (hn : CleanInv n) (fm : VecFair m)
    (fn : VecFair n) {c c' : Cache α} (pm : m.prepare = .ok c) (pn : n.prepare = .ok c') {ys zs : List (List α)}
    (hy : Cols c m.start ys) (hz : Cols c' n.start zs) (t : Nat) (h1 : t < ys.length) (h2 : t < zs.length) :
    ys[t] = zs[t] := by
  have hsl : m.start.length = m.topology.length := by simp [FCM.start, Dict.keys]
  have hlk : m.topology.keys.length = m.topology.length := by simp [Dict.keys]
  have hlk' : n.topology.keys.length = n.topology.length := by simp [Dict.keys]
  have hl : n.topology.length = m.topology.length := by rw [← hlk, ← hlk', h.keys]
  induction t with
  | zero =>
    have a := hy.head
    have b := hz.head
    rw [List.getElem?_eq_getElem h1] at a
    rw [List.getElem?_eq_getElem h2] at b
    rw [Option.some.inj a, Option.some.inj b, start_eq h]
  | succ t ih =>
    have e := ih (by omega) (by omega)
    have a := hy.step t ys[t] ys[t + 1] (List.getElem?_eq_getElem (by omega)) (List.getElem?_eq_getElem h1)
    have b := hz.step t zs[t] zs[t + 1] (List.getElem?_eq_getElem (by omega)) (List.getElem?_eq_getElem h2)
    have la : (ys[t]).length = m.topology.length := by rw [hy.len _ (List.getElem_mem _), hsl]
    have la' : (ys[t + 1]).length = m.topology.length := by rw [hy.len _ (List.getElem_mem _), hsl]
    have lb' : (zs[t + 1]).length = m.topology.length := by rw [hz.len _ (List.getElem_mem _), start_eq h, hsl]
    rw [hsl] at a
    rw [start_eq h, hsl, ← hl, ← e] at b
    apply List.ext_getElem (by rw [la', lb'])
    intro i i1 i2
    have n1 := vecStep_next hm pm fm la a (i := i) (by omega)
    have n2 := vecStep_next hn pn fn (by rw [la, hl]) b (i := i) (by omega)
    have hk : n.topology.keys[i]'(by omega) = m.topology.keys[i]'(by omega) := by simp [h.keys]
    rw [hk, h.next _ _ (List.getElem_mem _), h.keys, n1] at n2
    simp only [Option.some.injEq, Except.ok.injEq] at n2
    simpa [List.getD_eq_getElem?_getD, i1, i2] using n2

/-- Vectorised engine, on fair maps. -/
theorem vec_congr [Exact α] {m n m' n' : FCM α} (h : Alike m n) (hm : CleanInv m) (hn : CleanInv n) (fm : VecFair m)
    (fn : VecFair n) {c c' : Cache α} {ys zs : List (List α)} {k k' : Nat} (vm : VecDone m m' c ys k)
    (vn : VecDone n n' c' zs k') : ∀ d ∈ m.topology.keys, n'.traj d = m'.traj d := by
  have hlk : m.topology.keys.length = m.topology.length := by simp [Dict.keys]
  have hlk' : n.topology.keys.length = n.topology.length := by simp [Dict.keys]
  have hl : n.topology.length = m.topology.length := by rw [← hlk, ← hlk', h.keys]
  have hag := cols_congr h hm hn fm fn vm.prep vn.prep vm.cols vn.cols
  have hnear : ∀ s, s < ys.length → s < zs.length →
      (Near m.stabilityDiff ys s ↔ Near n.stabilityDiff zs s) := by
    intro s h1 h2
    have e : ∀ t, t ≤ s → ys.getD t [] = zs.getD t [] := by
      intro t ht
      rw [List.getD_eq_getElem?_getD, List.getD_eq_getElem?_getD, List.getElem?_eq_getElem (by omega),
        List.getElem?_eq_getElem (by omega), hag t (by omega) (by omega)]
    unfold Near
    rw [e s (Nat.le_refl _), e (s - 1) (by omega), h.diff]
  have hlen : ys.length = zs.length := by
    have s1 := vm.stops
    have s2 := vn.stops
    rw [h.extra] at s2
    rcases Nat.lt_trichotomy ys.length zs.length with hlt | hlt | hlt
    · obtain ⟨s, a, b, hn⟩ := s2.least _ s1.above hlt
      exact absurd ((hnear s b (by omega)).1 (s1.window s a b)) hn
    · exact hlt
    · obtain ⟨s, a, b, hn⟩ := s1.least _ s2.above hlt
      exact absurd ((hnear s (by omega) b).2 (s2.window s a b)) hn
  have hyz : ys = zs := List.ext_getElem hlen fun i a b => hag i a b
  subst hyz
  have hk : k' = k := by rw [vm.index, vn.index, h.maxIter, hl]
  subst hk
  intro d hd
  have hi := List.idxOf_lt_length_iff.2 hd
  have t1 := vm.traj _ hi
  have t2 := vn.traj (m.topology.keys.idxOf d) (by rw [h.keys]; exact hi)
  have e : n.topology.keys[m.topology.keys.idxOf d]'(by rw [h.keys]; exact hi) = d := by simp [h.keys]
  rw [keys_getElem_idxOf hd] at t1
  rw [e] at t2
  rw [t1, t2, h.maxIter, hl]

/-! ### Adding relations -/

/-- Both ends of the relation exist. -/
def FCM.knows (m : FCM α) (r : String × String × α) : Bool :=
  m.topology.has r.2.1 && m.topology.has r.1

/-- `add_relation(origin, dest, weight)` for every element of the list. -/
def addAll (rs : List (String × String × α)) (m : FCM α) : FCM α :=
  runOps (rs.map fun r => Op.addRelation r.1 r.2.1 r.2.2) m

structure Added (m m' : FCM α) (rs : List (String × String × α)) : Prop where
  eq : m' = { m with topology := m'.topology, arcList := m'.arcList, prepared := m'.prepared }
  keys : m'.topology.keys = m.topology.keys
  arcs : m'.arcList = m.arcList ++ (rs.filter m.knows).map fun r => ⟨r.2.1, r.2.2, r.1⟩
  node : ∀ c n, m.topology.get? c = some n → ∃ n', m'.topology.get? c = some n' ∧
    n' = { n with arcs := n'.arcs,
                  actvSum := (((rs.filter m.knows).filter fun r => r.2.1 = c).map (·.2.2)).foldl (· + ·) n.actvSum }

theorem addRelation_added {m : FCM α} (hf : m.fitInclination = none) (r : String × String × α) :
    ∃ m', FCM.addRelation r.1 r.2.1 r.2.2 m = (.ok (), m') ∧ Added m m' [r] := by
  obtain ⟨o, d, w⟩ := r
  unfold FCM.addRelation
  by_cases hk : m.topology.has d && m.topology.has o
  · have hkn : m.knows (o, d, w) = true := hk
    rw [if_pos hk]
    simp only [hf]
    refine ⟨_, rfl, by rw [hf], ?_, ?_, ?_⟩
    · simp only [Dict.keys_modify]
    · simp [hkn]
    · intro c n hn
      dsimp only
      have hfil : [(o, d, w)].filter m.knows = [(o, d, w)] := by simp [hkn]
      rw [Dict.get?_modify, Dict.get?_modify, hn, hfil]
      by_cases h1 : d = c <;> by_cases h2 : o = c <;> simp [h1, h2]
  · have hkn : m.knows (o, d, w) = false := by simpa [FCM.knows] using hk
    rw [if_neg hk]
    refine ⟨_, rfl, by rfl, rfl, by simp [hkn], ?_⟩
    intro c n hn
    exact ⟨n, hn, by simp [hkn]⟩

theorem Added.trans {m m1 m2 : FCM α} {xs ys : List (String × String × α)} (h1 : Added m m1 xs) (h2 : Added m1 m2 ys) :
    Added m m2 (xs ++ ys) := by
  have hk : m1.knows = m.knows := by
    funext r
    unfold FCM.knows
    have : ∀ c, m1.topology.has c = m.topology.has c := by
      intro c
      rw [Bool.eq_iff_iff, Dict.has_iff, Dict.has_iff, h1.keys]
    rw [this, this]
  refine ⟨?_, by rw [h2.keys, h1.keys], ?_, ?_⟩
  · have e := h2.eq
    rw [h1.eq] at e
    exact e
  · rw [h2.arcs, h1.arcs, hk, List.filter_append, List.map_append, List.append_assoc]
  · intro c n hn
    obtain ⟨n1, hn1, e1⟩ := h1.node c n hn
    obtain ⟨n2, hn2, e2⟩ := h2.node c n1 hn1
    refine ⟨n2, hn2, ?_⟩
    rw [e2, e1, hk]
    simp [List.filter_append, List.foldl_append]

theorem addAll_added {m : FCM α} (hf : m.fitInclination = none) (rs : List (String × String × α)) :
    Added m (addAll rs m) rs := by
  induction rs generalizing m with
  | nil => exact ⟨rfl, rfl, by simp [addAll, runOps], fun c n hn => ⟨n, hn, by simp⟩⟩
  | cons r rs ih =>
    obtain ⟨m1, h1, a1⟩ := addRelation_added hf r
    have : addAll (r :: rs) m = addAll rs m1 := by
      show runOps _ (Op.run (.addRelation r.1 r.2.1 r.2.2) m).2 = _
      show runOps _ (FCM.addRelation r.1 r.2.1 r.2.2 m).2 = _
      rw [h1]
      rfl
    rw [this]
    exact a1.trans (ih (by rw [a1.eq]; exact hf))

end PyFCM
