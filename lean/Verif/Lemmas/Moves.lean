import Verif.Props.Predicts
/-
Entering a row of values into a map, as a list of calls of `init_concept`.
-/
namespace PyFCM
open Arith

namespace Dict
variable {β : Type}

theorem set_swap (d : Dict β) {k l : String} (a b : β) (hne : k ≠ l) (hk : k ∈ d.keys) (hl : l ∈ d.keys) :
    (d.set k a).set l b = (d.set l b).set k a := by
  induction d with
  | nil => simp at hk
  | cons p d ih =>
    obtain ⟨k0, v0⟩ := p
    simp only [keys_cons, List.mem_cons] at hk hl
    by_cases h : k0 = k
    · have h' : k0 ≠ l := fun e => hne (h.symm.trans e)
      simp [set, h, hne]
    · by_cases h' : k0 = l
      · simp [set, h', Ne.symm hne]
      · simp only [set, if_neg h, if_neg h']
        rw [ih (hk.resolve_left (Ne.symm h)) (hl.resolve_left (Ne.symm h'))]

end Dict

variable {α : Type} [Arith α]

set_option linter.unusedSectionVars false

/-- The activation a concept takes for a value (fcm.py:440-455). -/
def Node.worth (n : Node α) (v : α) : Except Err α :=
  match n.fn with
  | none => .error (.keyError "custom activation function name")
  | some f =>
    if f.name = "fuzzy" then
      match n.fuzzyAct with
      | none => .error (.keyError "activation relation for continuous values")
      | some fa => fuzzySet v fa.membership fa.valList
    else .ok v

def FCM.put (m : FCM α) (c : String) (n : Node α) (a : α) : FCM α :=
  { m with topology := m.topology.set c { n with value := a, aux := [] }, execution := m.execution.set c [a] }

theorem initConcept_absent {m : FCM α} {c : String} (h : c ∉ m.topology.keys) (v : α) :
    FCM.initConcept c v false m = (.ok (), m) := by
  unfold FCM.initConcept
  rw [(Dict.get?_eq_none_iff _ _).2 h]
  rfl

theorem initConcept_worth {m : FCM α} {c : String} {n : Node α} (h : m.topology.get? c = some n) {v a : α}
    (ha : n.worth v = .ok a) : FCM.initConcept c v false m = (.ok (), m.put c n a) := by
  unfold Node.worth at ha
  cases hf : n.fn with
  | none => rw [hf] at ha; cases ha
  | some f =>
    rw [hf] at ha
    dsimp only at ha
    split at ha <;> rename_i hz
    · cases hfa : n.fuzzyAct with
      | none => rw [hfa] at ha; cases ha
      | some fa =>
        rw [hfa] at ha
        exact initConcept_fuzzy h hf hz hfa ha
    · cases ha
      exact initConcept_plain _ h hf hz

theorem initConcept_iff {m m' : FCM α} {c : String} {v : α} : FCM.initConcept c v false m = (.ok (), m') ↔
    c ∉ m.topology.keys ∧ m' = m ∨ ∃ n a, m.topology.get? c = some n ∧ n.worth v = .ok a ∧ m' = m.put c n a := by
  constructor
  · intro h
    by_cases hc : c ∈ m.topology.keys
    · obtain ⟨n, hn⟩ := Dict.exists_get?_of_mem hc
      refine .inr ?_
      cases hw : n.worth v with
      | ok a =>
        rw [initConcept_worth hn hw] at h
        exact ⟨n, a, hn, hw, (Prod.mk.inj h).2.symm⟩
      | error er =>
        exfalso
        unfold FCM.initConcept at h
        unfold Node.worth at hw
        rw [hn] at h
        dsimp only at h
        cases hf : n.fn with
        | none => rw [hf] at h; cases h
        | some f =>
          rw [hf] at h hw
          dsimp only at h hw
          split at hw <;> rename_i hz
          · rw [if_pos hz] at h
            cases hfa : n.fuzzyAct with
            | none => rw [hfa] at h; cases h
            | some fa =>
              rw [hfa] at h hw
              dsimp only at h hw
              rw [hw] at h
              cases h
          · cases hw
    · rw [initConcept_absent hc] at h
      exact .inl ⟨hc, (Prod.mk.inj h).2.symm⟩
  · rintro (⟨hc, rfl⟩ | ⟨n, a, hn, ha, rfl⟩)
    · exact initConcept_absent hc v
    · exact initConcept_worth hn ha

/-- Every concept has a record. -/
def Carried (m : FCM α) : Prop := ∀ c ∈ m.topology.keys, c ∈ m.execution.keys

theorem FCM.put_keys {m : FCM α} {c : String} {n0 n : Node α} (h : m.topology.get? c = some n0) (a : α) :
    (m.put c n a).topology.keys = m.topology.keys := Dict.keys_set_of_mem _ _ _ (Dict.mem_keys_of_get? h)

theorem Carried.put {m : FCM α} (hm : Carried m) {c : String} {n0 n : Node α} (h : m.topology.get? c = some n0) (a : α) :
    Carried (m.put c n a) := by
  intro d hd
  rw [FCM.put_keys h] at hd
  exact (Dict.mem_keys_set _ _ _ _).2 (.inl (hm d hd))

theorem initConcept_sameKeys {m m' : FCM α} {c : String} {v : α} (h : FCM.initConcept c v false m = (.ok (), m')) :
    m'.topology.keys = m.topology.keys := by
  rcases initConcept_iff.1 h with ⟨-, rfl⟩ | ⟨n, a, hn, -, rfl⟩
  · rfl
  · exact FCM.put_keys hn a

theorem initConcept_kept {m m' : FCM α} (hm : Carried m) {c : String} {v : α} (h : FCM.initConcept c v false m = (.ok (), m')) :
    Carried m' := by
  rcases initConcept_iff.1 h with ⟨-, rfl⟩ | ⟨n, a, hn, -, rfl⟩
  · exact hm
  · exact hm.put hn a

/-- Two calls for different concepts, or with the same value, can be exchanged. -/
theorem initConcept_swap {m m1 m2 : FCM α} (hm : Carried m) {c d : String} {v w : α} (hcd : c = d → c ∈ m.topology.keys → v = w)
    (h1 : FCM.initConcept c v false m = (.ok (), m1)) (h2 : FCM.initConcept d w false m1 = (.ok (), m2)) :
    ∃ k, FCM.initConcept d w false m = (.ok (), k) ∧ FCM.initConcept c v false k = (.ok (), m2) := by
  by_cases he : c = d
  · subst he
    by_cases hc : c ∈ m.topology.keys
    · obtain rfl := hcd rfl hc
      exact ⟨m1, h1, h2⟩
    · rw [initConcept_absent hc] at h1
      cases h1
      rw [initConcept_absent hc] at h2
      cases h2
      exact ⟨m, initConcept_absent hc _, initConcept_absent hc _⟩
  rcases initConcept_iff.1 h1 with ⟨hc, rfl⟩ | ⟨n, a, hn, ha, rfl⟩
  · refine ⟨m2, h2, initConcept_absent (by rw [initConcept_sameKeys h2]; exact hc) _⟩
  · rcases initConcept_iff.1 h2 with ⟨hd, rfl⟩ | ⟨n', b, hn', hb, rfl⟩
    · rw [FCM.put_keys hn] at hd
      exact ⟨m, initConcept_absent hd _, h1⟩
    · have hg : m.topology.get? d = some n' := by
        have : (m.topology.set c _).get? d = some n' := hn'
        rwa [Dict.get?_set_ne _ _ he] at this
      have hc' : (m.put d n' b).topology.get? c = some n := by
        show (m.topology.set d _).get? c = _
        rw [Dict.get?_set_ne _ _ (Ne.symm he)]
        exact hn
      refine ⟨m.put d n' b, initConcept_worth hg hb, ?_⟩
      rw [initConcept_worth hc' ha]
      have ht := Dict.set_swap m.topology { n with value := a, aux := [] } { n' with value := b, aux := [] } he
        (Dict.mem_keys_of_get? hn) (Dict.mem_keys_of_get? hg)
      have hx := Dict.set_swap m.execution [a] [b] he (hm _ (Dict.mem_keys_of_get? hn)) (hm _ (Dict.mem_keys_of_get? hg))
      unfold FCM.put
      simp only [ht, hx]

/-- A list of calls of `init_concept`. -/
def enter (l : List (String × α)) : PyM (FCM α) Unit := PyM.forEach l fun p => FCM.initConcept p.1 p.2 false

theorem enter_cons {p : String × α} {l : List (String × α)} {m m' : FCM α} : enter (p :: l) m = (.ok (), m') ↔
    ∃ m1, FCM.initConcept p.1 p.2 false m = (.ok (), m1) ∧ enter l m1 = (.ok (), m') := by
  unfold enter
  rw [PyM.forEach]
  dsimp only
  constructor
  · intro h
    split at h
    · rename_i m1 h1; exact ⟨m1, h1, h⟩
    · cases h
  · rintro ⟨m1, h1, h2⟩
    rw [h1]
    exact h2

theorem enter_append {l l' : List (String × α)} {m m' : FCM α} : enter (l ++ l') m = (.ok (), m') ↔
    ∃ m1, enter l m = (.ok (), m1) ∧ enter l' m1 = (.ok (), m') := by
  induction l generalizing m with
  | nil =>
    constructor
    · exact fun h => ⟨m, rfl, h⟩
    · rintro ⟨m1, h, h'⟩; cases h; exact h'
  | cons p l ih =>
    rw [List.cons_append, enter_cons]
    simp only [ih, enter_cons]
    constructor
    · rintro ⟨k, h1, k', h2, h3⟩; exact ⟨k', ⟨k, h1, h2⟩, h3⟩
    · rintro ⟨k', ⟨k, h1, h2⟩, h3⟩; exact ⟨k, h1, k', h2, h3⟩

/-- Two calls that agree. -/
def Agree (K : List String) (p q : String × α) : Prop := p.1 = q.1 → p.1 ∈ K → p.2 = q.2

theorem Agree.symm {K : List String} {p q : String × α} (h : Agree K p q) : Agree K q p :=
  fun e hk => (h e.symm (e ▸ hk)).symm

/-- The order of calls that agree with each other does not matter. -/
theorem enter_perm {l l' : List (String × α)} (h : l.Perm l') : ∀ {m m' : FCM α}, Carried m → l.Pairwise (Agree m.topology.keys) →
    enter l m = (.ok (), m') → enter l' m = (.ok (), m') := by
  induction h with
  | nil => exact fun _ _ h => h
  | cons p h ih =>
    intro m m' hm hp he
    obtain ⟨m1, h1, h2⟩ := enter_cons.1 he
    exact enter_cons.2 ⟨m1, h1, ih (initConcept_kept hm h1) (by rw [initConcept_sameKeys h1]; exact (List.pairwise_cons.1 hp).2) h2⟩
  | swap p q l =>
    intro m m' hm hp he
    obtain ⟨m1, h1, h2⟩ := enter_cons.1 he
    obtain ⟨m2, h2, h3⟩ := enter_cons.1 h2
    obtain ⟨k, k1, k2⟩ := initConcept_swap hm ((List.pairwise_cons.1 hp).1 p (by simp)) h1 h2
    exact enter_cons.2 ⟨k, k1, enter_cons.2 ⟨m2, k2, h3⟩⟩
  | trans h1 h2 ih1 ih2 =>
    intro m m' hm hp he
    exact ih2 hm ((h1.pairwise_iff (fun {_ _} h => Agree.symm h)).1 hp) (ih1 hm hp he)

/-- What the calls leave behind. -/
theorem enter_spec : ∀ {l : List (String × α)} {m m' : FCM α}, l.Pairwise (Agree m.topology.keys) → enter l m = (.ok (), m') →
    m'.topology.keys = m.topology.keys ∧
    (∀ p ∈ l, ∀ n, m.topology.get? p.1 = some n → ∃ a, n.worth p.2 = .ok a ∧ m'.execution.get? p.1 = some [a] ∧
      ∃ n', m'.topology.get? p.1 = some n' ∧ n'.value = a) ∧
    ∀ c, c ∉ l.map (·.1) → m'.topology.get? c = m.topology.get? c ∧ m'.execution.get? c = m.execution.get? c
  | [], m, m', _, h => by cases h; exact ⟨rfl, by simp, fun _ _ => ⟨rfl, rfl⟩⟩
  | p :: l, m, m', hp, h => by
    obtain ⟨m1, h1, h2⟩ := enter_cons.1 h
    have hk := initConcept_sameKeys h1
    obtain ⟨hp1, hp2⟩ := List.pairwise_cons.1 hp
    obtain ⟨e1, e2, e3⟩ := enter_spec (by rw [hk]; exact hp2) h2
    have hw : ∀ d n, m.topology.get? d = some n → ∃ n1, m1.topology.get? d = some n1 ∧ ∀ v, n1.worth v = n.worth v := by
      intro d n hn
      rcases initConcept_iff.1 h1 with ⟨-, rfl⟩ | ⟨n0, a, hn0, ha, rfl⟩
      · exact ⟨n, hn, fun _ => rfl⟩
      · by_cases e : p.1 = d
        · subst e
          rw [hn] at hn0
          cases hn0
          exact ⟨{ n with value := a, aux := [] }, Dict.get?_set_self _ _ _, fun _ => rfl⟩
        · exact ⟨n, by show (m.topology.set p.1 _).get? d = _; rw [Dict.get?_set_ne _ _ e]; exact hn, fun _ => rfl⟩
    refine ⟨e1.trans hk, ?_, ?_⟩
    · intro q hq n hn
      rcases List.mem_cons.1 hq with rfl | hq
      · rcases initConcept_iff.1 h1 with ⟨hc, -⟩ | ⟨n0, a, hn0, ha, rfl⟩
        · exact absurd (Dict.mem_keys_of_get? hn) hc
        · rw [hn] at hn0
          cases hn0
          refine ⟨a, ha, ?_⟩
          by_cases hql : q.1 ∈ l.map (·.1)
          · obtain ⟨r, hr, e⟩ := List.mem_map.1 hql
            obtain ⟨n1, hn1, hw1⟩ := hw q.1 n hn
            obtain ⟨b, hb, hb'⟩ := e2 r hr n1 (by rw [e]; exact hn1)
            rw [hw1, ← hp1 r hr e.symm (Dict.mem_keys_of_get? hn), ha] at hb
            cases hb
            rw [← e]; exact hb'
          · rw [(e3 _ hql).1, (e3 _ hql).2]
            exact ⟨Dict.get?_set_self _ _ _, _, Dict.get?_set_self _ _ _, rfl⟩
      · obtain ⟨n1, hn1, hw1⟩ := hw q.1 n hn
        obtain ⟨a, ha, ha'⟩ := e2 q hq n1 hn1
        exact ⟨a, by rw [← hw1]; exact ha, ha'⟩
    · intro c hc
      rw [List.map_cons, List.mem_cons, not_or] at hc
      rw [(e3 c hc.2).1, (e3 c hc.2).2]
      rcases initConcept_iff.1 h1 with ⟨-, rfl⟩ | ⟨n0, a, hn0, ha, rfl⟩
      · exact ⟨rfl, rfl⟩
      · exact ⟨Dict.get?_set_ne _ _ (Ne.symm hc.1), Dict.get?_set_ne _ _ (Ne.symm hc.1)⟩

/-- The calls made for one cell. -/
def cellMoves (cfg : GenConf α) (x : Ext α) (fs : Dict (Feature α)) (p : String × Cell α) : Except Err (List (String × α)) :=
  match fs.get? p.1 with
  | none => .error (.keyError p.1)
  | some f =>
    if isFuzzyType f.type then
      match p.2.num with
      | .ok v => .ok (f.names.map fun c => (c, v))
      | .error e => .error e
    else
      match p.2.key x with
      | .ok k => .ok [(nameConcept cfg p.1 k, lit 1)]
      | .error e => .error e

theorem initAll_enter (v : α) : ∀ (cs : List String) (m : FCM α), initAll v cs m = enter (cs.map fun c => (c, v)) m
  | [], m => rfl
  | c :: cs, m => by
    unfold initAll enter
    rw [PyM.run_bind, List.map_cons, PyM.forEach]
    dsimp only
    rcases FCM.initConcept c v false m with ⟨_ | ⟨⟩, m1⟩
    · rfl
    · exact initAll_enter v cs m1

theorem initByFeature_moves {cfg : GenConf α} {x : Ext α} {fs : Dict (Feature α)} {p : String × Cell α} {m m' : FCM α} :
    initByFeature cfg x fs p.1 p.2 m = (.ok (), m') ↔ ∃ l, cellMoves cfg x fs p = .ok l ∧ enter l m = (.ok (), m') := by
  unfold initByFeature initByFeatureBody cellMoves
  cases hf : fs.get? p.1 with
  | none => simp [need, PyM.run_bind, PyM.lift]
  | some f =>
    simp only [need, PyM.run_bind, PyM.lift]
    by_cases ht : isFuzzyType f.type
    · simp only [ht, if_true]
      cases hv : p.2.num with
      | error e => simp [PyM.run_bind, PyM.lift]
      | ok v =>
        simp only [PyM.run_bind, PyM.lift, Except.ok.injEq, exists_eq_left', initAll_enter]
        rcases enter (f.names.map fun c => (c, v)) m with ⟨_ | ⟨⟩, m1⟩ <;> simp
    · simp only [ht]
      cases hv : p.2.key x with
      | error e => simp [PyM.run_bind, PyM.lift]
      | ok k =>
        rcases hm : FCM.initConcept (nameConcept cfg p.1 k) (lit 1) false m with ⟨_ | ⟨⟩, m1⟩ <;>
          simp [PyM.run_bind, PyM.lift, enter, PyM.forEach, hm]

theorem initByFeature_error {cfg : GenConf α} {x : Ext α} {fs : Dict (Feature α)} {f : String} {u : Cell α} {m m' : FCM α}
    {er : Err} (h : initByFeature cfg x fs f u m = (.error er, m')) : er = .exc "Cannot init concept" := by
  unfold initByFeature at h
  split at h <;> cases h
  rfl

theorem initRow_error {cfg : GenConf α} {x : Ext α} {fs : Dict (Feature α)} : ∀ {row : List (String × Cell α)} {m m' : FCM α}
    {er : Err}, initRow cfg x fs row m = (.error er, m') → er = .exc "Cannot init concept"
  | [], _, _, _, h => by cases h
  | p :: row, m, m', er, h => by
    unfold initRow at h
    rw [PyM.forEach] at h
    dsimp only at h
    split at h <;> rename_i h1
    · exact initRow_error (row := row) h
    · cases h
      exact initByFeature_error h1

/-- The calls made for a row. -/
theorem initRow_moves {cfg : GenConf α} {x : Ext α} {fs : Dict (Feature α)} : ∀ {row : List (String × Cell α)} {m m' : FCM α},
    initRow cfg x fs row m = (.ok (), m') ↔
      ∃ ls, List.Forall₂ (fun p l => cellMoves cfg x fs p = .ok l) row ls ∧ enter ls.flatten m = (.ok (), m')
  | [], m, m' => by
    constructor
    · intro h; exact ⟨[], .nil, h⟩
    · rintro ⟨ls, h, h'⟩; cases h; exact h'
  | p :: row, m, m' => by
    have hc : initRow cfg x fs (p :: row) m = (.ok (), m') ↔
        ∃ m1, initByFeature cfg x fs p.1 p.2 m = (.ok (), m1) ∧ initRow cfg x fs row m1 = (.ok (), m') := by
      unfold initRow
      rw [PyM.forEach]
      dsimp only
      constructor
      · intro h
        split at h
        · rename_i m1 h1; exact ⟨m1, h1, h⟩
        · cases h
      · rintro ⟨m1, h1, h2⟩; rw [h1]; exact h2
    rw [hc]
    simp only [initByFeature_moves, initRow_moves (row := row)]
    constructor
    · rintro ⟨m1, ⟨l, h1, h2⟩, ls, h3, h4⟩
      exact ⟨l :: ls, .cons h1 h3, by rw [List.flatten_cons]; exact enter_append.2 ⟨m1, h2, h4⟩⟩
    · rintro ⟨ls, h1, h2⟩
      cases h1 with
      | cons h1 h3 =>
        rw [List.flatten_cons] at h2
        obtain ⟨m1, h4, h5⟩ := enter_append.1 h2
        exact ⟨m1, ⟨_, h1, h4⟩, _, h3, h5⟩

end PyFCM
