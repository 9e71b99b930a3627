import Verif.Lemmas.Estimator
import Verif.Lemmas.VectorTerm
/-
The iterative engine never loses the first value of a trajectory, even when it raises; both engines keep it when they
return.
-/
namespace PyFCM
open Arith

set_option linter.unusedSectionVars false

variable {α : Type} [Arith α]

/-- The iterative engine is chosen and the concepts in `K` have a first value. -/
def Filled (K : List String) (m : FCM α) : Prop :=
  m.debug = true ∧ ∀ c ∈ K, ∃ v rest, m.execution.get? c = some (v :: rest)

theorem Filled.set {K : List String} {m : FCM α} (h : Filled K m) (t : Dict (Node α)) (c : String) (v : α) (r : List α) :
    Filled K { m with topology := t, execution := m.execution.set c (v :: r) } := by
  refine ⟨h.1, fun k hk => ?_⟩
  dsimp only
  rw [Dict.get?_set]
  split
  · exact ⟨v, r, rfl⟩
  · exact h.2 k hk

theorem clearOne_filled (K : List String) (c : String) : Pres (Filled K) (clearOne c : PyM (FCM α) Unit) := by
  intro m hm
  unfold clearOne
  split
  · exact hm
  · exact hm.set _ _ _ _

theorem resetOne_filled (K : List String) (c : String) : Pres (Filled K) (resetOne c : PyM (FCM α) Unit) := by
  intro m hm
  unfold resetOne
  split
  · exact hm
  · dsimp only
    split
    · exact hm
    · exact hm
    · exact hm.set _ _ _ _

theorem initConcept_filled (K : List String) (c : String) (v : α) (r : Bool) :
    Pres (Filled K) (FCM.initConcept c v r) := by
  intro m hm
  unfold FCM.initConcept
  repeat' split
  all_goals first | exact hm | exact hm.set _ _ _ _

theorem gatherArc_filled (K : List String) (a : Arc α) : Pres (Filled K) (gatherArc a) := by
  intro m hm
  unfold gatherArc
  repeat' split
  all_goals exact hm

theorem stepNode_filled (K : List String) (c : String) : Pres (Filled K) (stepNode c : PyM (FCM α) Unit) := by
  intro m hm
  unfold stepNode
  dsimp only
  repeat' split
  all_goals first | exact hm | skip
  rename_i xs hx
  refine ⟨hm.1, fun k hk => ?_⟩
  dsimp only
  rw [Dict.get?_set]
  split
  · rename_i e
    obtain ⟨v, rest, h⟩ := hm.2 k hk
    subst e
    rw [h] at hx
    cases hx
    exact ⟨v, _, rfl⟩
  · exact hm.2 k hk

theorem stepOnce_filled (K : List String) : Pres (Filled K) (FCM.stepOnce : PyM (FCM α) Unit) := by
  intro m hm
  unfold FCM.stepOnce
  have h1 := Pres.forEach (fun a _ => gatherArc_filled K a) (xs := m.arcList) m hm
  split
  · rename_i h; rw [h] at h1; exact h1
  · rename_i m1 h
    rw [h] at h1
    have h2 := Pres.forEach (fun c _ => stepNode_filled K c) (xs := m1.execution.keys) m1 h1
    split
    · rename_i h; rw [h] at h2; exact h2
    · rename_i h; rw [h] at h2; exact h2

theorem iterLoop_filled (K : List String) : ∀ fuel extra, Pres (Filled K) (FCM.iterLoop fuel extra : PyM (FCM α) Unit)
  | 0, extra => by
    intro m hm
    unfold FCM.iterLoop
    split <;> exact hm
  | fuel + 1, extra => by
    intro m hm
    unfold FCM.iterLoop
    dsimp only
    split
    · split
      · exact hm
      · have h1 := stepOnce_filled K m hm
        split
        · rename_i h; rw [h] at h1; exact h1
        · rename_i h; rw [h] at h1; exact iterLoop_filled K fuel _ _ h1
    · exact hm

theorem engine_filled (K : List String) : Pres (Filled K) (FCM.engine : PyM (FCM α) Unit) := by
  intro m hm
  unfold FCM.engine
  rw [if_pos hm.1]
  exact iterLoop_filled K _ _ _ hm

theorem decideNode_filled (K : List String) (c : String) : Pres (Filled K) (decideNode c : PyM (FCM α) Unit) := by
  intro m hm
  unfold decideNode
  repeat' split
  all_goals exact hm

theorem reset_filled (K : List String) : Pres (Filled K) (FCM.resetExecution : PyM (FCM α) Unit) := fun m hm =>
  Pres.forEach (fun c _ => resetOne_filled K c) m hm

theorem clear_filled (K : List String) : Pres (Filled K) (FCM.clearExecution : PyM (FCM α) Unit) := fun m hm =>
  Pres.forEach (fun c _ => clearOne_filled K c) m hm

theorem run_filled (K : List String) : Pres (Filled K) (FCM.runInference true : PyM (FCM α) Unit) := by
  intro m hm
  unfold FCM.runInference
  rw [if_pos rfl]
  have h1 := reset_filled K m hm
  split
  · rename_i h; rw [h] at h1; exact h1
  · rename_i h
    rw [h] at h1
    have h2 := engine_filled K _ h1
    split
    · rename_i h; rw [h] at h2; exact h2
    · rename_i h; rw [h] at h2
      exact Pres.forEach (fun c _ => decideNode_filled K c) _ h2

theorem predictRows_filled (K : List String) (cfg : GenConf α) (x : Ext α) (fs : Dict (Feature α))
    (rows : List (List (String × Cell α))) : Pres (Filled K) (predictRows cfg x fs rows) :=
  predictRows_pres (initConcept_filled K) (clear_filled K) (run_filled K) cfg x fs rows

theorem predictRows_tracked (K : List String) (cfg : GenConf α) (x : Ext α) (fs : Dict (Feature α))
    (rows : List (List (String × Cell α))) : Pres (Tracked K) (predictRows cfg x fs rows) :=
  predictRows_pres (initConcept_tracked K) (clear_tracked K) (run_tracked K) cfg x fs rows

/-! ### Calls that return -/

/-- `P` holds afterwards if the program returns. -/
def Kept {σ β : Type} (P : σ → Prop) (x : PyM σ β) : Prop := ∀ s b s', P s → x s = (.ok b, s') → P s'

theorem Pres.kept {σ β : Type} {P : σ → Prop} {x : PyM σ β} (h : Pres P x) : Kept P x := by
  intro s b s' hs e
  have := h s hs
  rwa [e] at this

theorem Kept.bind {σ β γ : Type} {P : σ → Prop} {x : PyM σ β} {f : β → PyM σ γ} (hx : Kept P x)
    (hf : ∀ b, Kept P (f b)) : Kept P (x >>= f) := by
  intro s c s' hs e
  rw [PyM.run_bind] at e
  rcases h : x s with ⟨_ | b, s1⟩
  · rw [h] at e; cases e
  · rw [h] at e
    exact hf b s1 c s' (hx s b s1 hs h) e

/-- The map is in order and every concept has a first value. -/
def Startable (m : FCM α) : Prop := Inv m ∧ Started m

theorem initConcept_startable (c : String) (v : α) (r : Bool) : Pres Startable (FCM.initConcept c v r) := by
  intro m hm
  refine ⟨(Op.pres (.initConcept c v r) m hm.1), ?_⟩
  unfold FCM.initConcept
  split
  · split <;> exact hm.2
  · rename_i n hn
    have h1 : ∀ (n' : Node α) (w : α), Started
        { m with topology := m.topology.set c n', execution := m.execution.set c [w] } := by
      intro n' w k hk
      dsimp only at hk ⊢
      rw [Dict.keys_set_of_mem _ _ _ (Dict.mem_keys_of_get? hn)] at hk
      rw [Dict.get?_set]
      split
      · exact ⟨w, [], rfl⟩
      · exact hm.2 k hk
    repeat' split
    all_goals first | exact hm.2 | exact h1 _ _

theorem clear_startable : Kept Startable (FCM.clearExecution : PyM (FCM α) Unit) := by
  intro m u m' hm h
  have hi := Op.pres .clearExecution m hm.1
  obtain ⟨m1, h1, -, hk, hall⟩ := clear_spec hm.1
  rw [h] at h1
  cases h1
  refine ⟨by rw [show (Op.clearExecution : Op α).run m = _ from h] at hi; exact hi, fun c hc => ?_⟩
  rw [hk] at hc
  obtain ⟨n, hn⟩ := Dict.exists_get?_of_mem hc
  exact ⟨_, _, (hall c n hn).2⟩

theorem run_startable : Kept Startable (FCM.runInference true : PyM (FCM α) Unit) := by
  intro m u m' hm h
  have hi := Op.pres (.runInference true) m hm.1
  rw [show (Op.runInference true : Op α).run m = _ from h] at hi
  obtain ⟨m1, m2, -, -, -, -, ha, -⟩ := run_after hm.1 h
  refine ⟨hi, fun c hc => ?_⟩
  rw [ha.keys] at hc
  obtain ⟨n, hn⟩ := Dict.exists_get?_of_mem hc
  obtain ⟨rest, hx⟩ := ha.heads c n hn
  exact ⟨_, rest, hx⟩

theorem predictRow_startable (cfg : GenConf α) (x : Ext α) (fs : Dict (Feature α)) (row : List (String × Cell α)) :
    Kept Startable (predictRow cfg x fs row) := by
  unfold predictRow
  refine Kept.bind clear_startable fun _ => Kept.bind ?_ fun _ => ?_
  · exact (Pres.forEach fun p _ => initByFeature_pres initConcept_startable cfg x fs p.1 p.2).kept
  · unfold inferenceResult
    refine Kept.bind run_startable fun _ => Kept.bind Pres.get.kept fun m => Kept.bind (Pres.lift _).kept fun _ => ?_
    exact Kept.bind (Pres.lift _).kept fun _ => (Pres.lift _).kept

theorem predictRows_startable (cfg : GenConf α) (x : Ext α) (fs : Dict (Feature α)) :
    ∀ rows : List (List (String × Cell α)), Kept Startable (predictRows cfg x fs rows)
  | [] => (Pres.pure _).kept
  | r :: rs => Kept.bind (predictRow_startable cfg x fs r) fun _ =>
      Kept.bind (predictRows_startable cfg x fs rs) fun _ => (Pres.pure _).kept

/-! ### The vectorised engine -/

/-- The vectorised engine is chosen and the first value of every trajectory is not the filler 2. -/
def Headed (m : FCM α) : Prop :=
  m.debug = false ∧ ∀ c ∈ m.topology.keys, ∃ v rest, m.execution.get? c = some (v :: rest) ∧ (v =? lit 2) = false

theorem Headed.started {m : FCM α} (h : Headed m) : Started m := fun c hc =>
  let ⟨v, rest, h1, _⟩ := h.2 c hc
  ⟨v, rest, h1⟩

theorem vectorizedRun_two {c : Cache α} {s0 : List α} {M : Int} {d : α} {e : Nat} {out : List (List α)}
    (h : vectorizedRun c s0 M d e = .ok out) : 2 ≤ M := by
  unfold vectorizedRun at h
  split at h
  · cases h
  · split at h
    · cases h
    · refine Classical.byContradiction fun hM => ?_
      have hM : M.toNat = 1 := by omega
      dsimp only at h
      rw [hM] at h
      simp only [vecLoop] at h
      rcases hx : (List.range s0.length).mapM
          (vecNode c (List.zipWith desat c.avoidSaturation s0)) with er | new
      · rw [hx] at h; cases h
      · rw [hx] at h
        exact absurd h (by simp [bind, Except.bind])

/-- The first column is always stored. -/
theorem colIndex_pos {row : List α} {M : Nat} (hM : 2 ≤ M) {v : α} (hh : row.head? = some v) (hv : (v =? lit 2) = false) :
    0 < colIndex row M := by
  unfold colIndex
  split
  · rename_i i hi
    cases row with
    | nil => cases hh
    | cons a l =>
      cases hh
      rw [List.findIdx?_cons, hv] at hi
      simp only [Bool.false_eq_true, if_false] at hi
      obtain ⟨j, -, rfl⟩ := Option.map_eq_some_iff.1 hi
      omega
  · omega

theorem stored_headed {m1 m2 : FCM α} (hf : Fresh m1) (hd : Headed m1) (h2 : FCM.vectorizedInference m1 = (.ok (), m2)) :
    Headed m2 := by
  obtain ⟨cache, sv, result, hcase, hne, hres, e2⟩ := vectorized_ok h2
  obtain ⟨hrl, hrh⟩ := vectorizedRun_heads hres
  have hlen : m1.topology.keys.length = m1.topology.length := by simp [Dict.keys]
  have hsvl : m1.topology.length ≤ sv.length := by
    rcases hcase with ⟨_, _, rfl⟩ | ⟨_, _, rfl⟩ <;> simp
  have hst := storeRows_get (k := colIndex (result.headD []) m1.maxIter.toNat) (cs := m1.topology.keys) (rs := result)
    (d := m1.execution) hf.inv.tnd (by omega)
  have hx2 : m2.execution = m1.stored result := by rw [e2]
  have ht2 : m2.topology = m1.topology := by rw [e2]
  have hval : ∀ i (hi : i < m1.topology.keys.length), ∃ a l, result[i]? = some (a :: l) ∧ (a =? lit 2) = false := by
    intro i hi
    have hi' : i < m1.topology.length := by rw [← hlen]; exact hi
    have hir : i < result.length := by omega
    have hhead : result[i].head? = some (sv[i]'(by omega)) := by
      have : (result.map (·.head?))[i]'(by simpa using hir) = (sv.map some)[i]'(by simp; omega) := by simp only [hrh]
      simpa using this
    have hsv : sv[i]'(by omega) = (m1.topology[i]).2.value := by
      have hi2 : i < (m1.topology.map fun p => p.2.value).length := by simpa using hi'
      rcases hcase with ⟨_, _, rfl⟩ | ⟨_, _, rfl⟩
      · rw [List.getElem_append_left hi2]; simp
      · simp
    have hg := get?_getElem hf.inv.tnd i hi'
    have hx := hf.exe _ _ hg
    obtain ⟨v, rest, hv1, hv2⟩ := hd.2 _ (Dict.mem_keys_of_get? hg)
    rw [hx] at hv1
    cases hv1
    rw [List.getElem?_eq_getElem hir]
    cases hr : result[i] with
    | nil => rw [hr] at hhead; cases hhead
    | cons a l =>
      rw [hr] at hhead
      cases hhead
      exact ⟨_, l, rfl, by rw [hsv]; exact hv2⟩
  refine ⟨by rw [e2]; exact hd.1, fun c hc => ?_⟩
  rw [ht2] at hc
  obtain ⟨i, hi, rfl⟩ := List.getElem_of_mem hc
  have hir : i < result.length := by omega
  have hg : m2.execution.get? m1.topology.keys[i] = some (result[i].take (colIndex (result.headD []) m1.maxIter.toNat)) := by
    rw [hx2]; exact hst.2.1 i hi hir
  have hk : 0 < colIndex (result.headD []) m1.maxIter.toNat := by
    obtain ⟨a, l, h1, h2⟩ := hval 0 (by omega)
    have : result.headD [] = a :: l := by
      cases result with
      | nil => cases h1
      | cons r rs => cases h1; rfl
    rw [this]
    have := vectorizedRun_two hres
    exact colIndex_pos (by omega) rfl h2
  obtain ⟨a, l, h1, h2⟩ := hval i hi
  rw [List.getElem?_eq_getElem hir] at h1
  rw [hg, Option.some.inj h1]
  obtain ⟨k, hk'⟩ := Nat.exists_eq_succ_of_ne_zero (Nat.pos_iff_ne_zero.1 hk)
  rw [hk']
  exact ⟨a, _, rfl, h2⟩

theorem vectorized_raised {m m' : FCM α} {er : Err} (h : FCM.vectorizedInference m = (.error er, m')) :
    m'.topology = m.topology ∧ m'.execution = m.execution ∧ m'.debug = m.debug := by
  unfold FCM.vectorizedInference at h
  have key : ∀ k : FCM α, k.vectorRunStore = (.error er, m') → m' = k := by
    intro k hk
    unfold FCM.vectorRunStore at hk
    split at hk
    · cases hk; rfl
    · split at hk
      · cases hk; rfl
      · cases hk
  dsimp only at h
  split at h
  · rw [key _ h]; exact ⟨rfl, rfl, rfl⟩
  · split at h
    · cases h; exact ⟨rfl, rfl, rfl⟩
    · rw [key _ h]; exact ⟨rfl, rfl, rfl⟩

theorem decideNode_headed (c : String) : Pres Headed (decideNode c : PyM (FCM α) Unit) := by
  intro m hm
  unfold decideNode
  split
  · exact hm
  · rename_i n hn
    split
    · exact hm
    · split
      · exact hm
      · refine ⟨hm.1, fun k hk => hm.2 k ?_⟩
        dsimp only at hk
        rwa [Dict.keys_set_of_mem _ _ _ (Dict.mem_keys_of_get? hn)] at hk

theorem run_headed : Pres (fun m : FCM α => Inv m ∧ Headed m) (FCM.runInference true) := by
  intro m hm
  refine ⟨Op.pres (.runInference true) m hm.1, ?_⟩
  obtain ⟨m1, h1⟩ := reset_success hm.2.started
  have hf := reset_fresh hm.1 h1
  have hh : Headed m1 := by
    obtain ⟨e, k1, -, -, hall⟩ := reset_spec hm.1 h1
    refine ⟨by rw [e]; exact hm.2.1, fun c hc => ?_⟩
    rw [k1] at hc
    obtain ⟨n, v, rest, -, hx, -, hx'⟩ := hall c hc
    obtain ⟨v', rest', g1, g2⟩ := hm.2.2 c hc
    rw [hx] at g1
    cases g1
    exact ⟨v, [], hx', g2⟩
  unfold FCM.runInference
  rw [if_pos rfl, h1]
  dsimp only
  have he : FCM.engine m1 = FCM.vectorizedInference m1 := by
    unfold FCM.engine
    rw [if_neg (by rw [hh.1]; simp)]
  rw [he]
  split
  · rename_i er m2 h2
    obtain ⟨a, b, c⟩ := vectorized_raised h2
    exact ⟨c.trans hh.1, fun k hk => by rw [a] at hk; rw [b]; exact hh.2 k hk⟩
  · rename_i m2 h2
    exact Pres.forEach (fun c _ => decideNode_headed c) _ (stored_headed hf hh h2)

theorem clear_headed (h2 : ((lit 0 : α) =? lit 2) = false) :
    Pres (fun m : FCM α => Inv m ∧ Headed m) (FCM.clearExecution) := by
  intro m hm
  refine ⟨Op.pres .clearExecution m hm.1, ?_⟩
  obtain ⟨m1, h1, e, hk, hall⟩ := clear_spec hm.1
  rw [h1]
  refine ⟨by dsimp only; rw [e]; exact hm.2.1, fun c hc => ?_⟩
  dsimp only at hc ⊢
  rw [hk] at hc
  obtain ⟨n, hn⟩ := Dict.exists_get?_of_mem hc
  exact ⟨_, _, (hall c n hn).2, h2⟩

theorem predictRows_by {P : FCM α → Prop} {cfg : GenConf α} {x : Ext α} {fs : Dict (Feature α)}
    (hP : ∀ feat u, Pres P (initByFeature cfg x fs feat u))
    (hc : Pres P (FCM.clearExecution : PyM (FCM α) Unit)) (hr : Pres P (FCM.runInference true : PyM (FCM α) Unit)) :
    ∀ rows : List (List (String × Cell α)), Pres P (predictRows cfg x fs rows)
  | [] => Pres.pure _
  | r :: rs => by
    refine Pres.bind ?_ fun _ => Pres.bind (predictRows_by hP hc hr rs) fun _ => Pres.pure _
    unfold predictRow
    refine Pres.bind hc fun _ => Pres.bind (Pres.forEach fun p _ => hP p.1 p.2) fun _ => ?_
    unfold inferenceResult
    refine Pres.bind hr fun _ => Pres.bind Pres.get fun m => Pres.bind (Pres.lift _) fun _ => ?_
    exact Pres.bind (Pres.lift _) fun _ => Pres.lift _

end PyFCM
