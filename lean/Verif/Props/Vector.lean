import Verif.Lemmas.Congr
import Verif.Props.State
/-
C11 - C13: the vectorised engine.
-/
namespace PyFCM
open Arith Spec

set_option linter.unusedSectionVars false

variable {α : Type} [Arith α]

theorem CleanReachable.after {m : FCM α} (h : CleanReachable m) (op : Op α) {m' : FCM α} (hop : op.run m = (.ok (), m')) :
    CleanReachable m' := .step op h hop

/-! ### C11: both engines compute the same trajectory -/

/-- The full claim, for exact arithmetic. -/
def C11_full (α : Type) [Arith α] : Prop :=
  ∀ m mi mv : FCM α, CleanReachable m → FCM.runInference true { m with debug := true } = (.ok (), mi) →
    FCM.runInference true { m with debug := false } = (.ok (), mv) →
    ∀ c t, t < (mi.traj c).length → t < (mv.traj c).length → at' mi.traj t c = at' mv.traj t c

/-- In exact arithmetic the vectorised engine records a run of the same recurrence as the iterative one, if all
concepts are active, no two relations have the same ends, every fuzzy concept has a positive weight sum, and the
activation functions accept their keyword arguments. -/
theorem C11_recurrence_partial [Exact α] {m m' : FCM α} (hr : CleanReachable m) (hd : m.debug = false) (hf : VecFair m)
    (h : FCM.runInference true m = (.ok (), m')) :
    ∃ len, IsRun m.net m.topology.keys m'.traj len ∧
      ∀ c ∈ m.topology.keys, 0 < len → at' m'.traj 0 c = at' m.traj 0 c := by
  by_cases hne : m.topology = []
  · have hk : m.topology.keys = [] := by rw [hne]; rfl
    exact ⟨0, fun c hc => (by rw [hk] at hc; simp at hc), fun c hc => (by rw [hk] at hc; simp at hc)⟩
  · obtain ⟨c, ys, k, hv⟩ := run_vec hr.clean.inv hr.reachable.coherent hd hne h
    have hm' : Inv m' := by have := runInference_pres true m hr.clean.inv; rwa [h] at this
    refine ⟨k, hv.isRun hr.clean hm' hne hf, ?_⟩
    intro d hd hk
    obtain ⟨x, hx, ex⟩ := hv.at' hr.clean.inv hm' hne hk
    have : x = m.start := by
      have := hv.cols.head
      rw [hx] at this
      exact Option.some.inj this
    rw [ex, this]
    have hi := List.idxOf_lt_length_iff.2 hd
    show (m.topology.keys.map fun c => at' m.traj 0 c).getD _ _ = _
    rw [List.getD_eq_getElem?_getD, List.getElem?_map, List.getElem?_eq_getElem hi, keys_getElem_idxOf hd]
    rfl


/-- The same step has the same value in both engines, for every step both execute, on the maps described above. -/
theorem C11_same_partial [Exact α] {m mi mv : FCM α} (hr : CleanReachable m) (hf : VecFair m)
    (hi : FCM.runInference true { m with debug := true } = (.ok (), mi))
    (hv : FCM.runInference true { m with debug := false } = (.ok (), mv)) (c : String) (t : Nat)
    (h1 : t < (mi.traj c).length) (h2 : t < (mv.traj c).length) : at' mi.traj t c = at' mv.traj t c := by
  have cr : ∀ b, CleanReachable { m with debug := b } := fun b => .step (.assignDebug b) hr rfl
  have hmi : Inv mi := by have := runInference_pres true _ (cr true).clean.inv; rwa [hi] at this
  have hmv : Inv mv := by have := runInference_pres true _ (cr false).clean.inv; rwa [hv] at this
  obtain ⟨li, ri⟩ := run_iter (cr true).clean.inv rfl hi
  obtain ⟨lv, rv, rv0⟩ := C11_recurrence_partial (cr false) rfl ⟨hf.active, hf.single, hf.fuzzy, hf.args⟩ hv
  have kv : mv.topology.keys = m.topology.keys := by
    have := run_view true { m with debug := false }
    rw [hv] at this
    exact view_keys this
  have out : ∀ (m' : FCM α), Inv m' → m'.topology.keys = m.topology.keys → ∀ d, d ∉ m.topology.keys → m'.traj d = [] := by
    intro m' hm' hk d hd
    have : m'.execution.get? d = none := by
      rw [Dict.get?_eq_none_iff]
      intro hmem
      exact hd (by rw [← hk]; exact hm'.sub d hmem)
    simp [FCM.traj, this]
  have outi := out mi hmi ri.keys
  have outv := out mv hmv kv
  have hc : c ∈ m.topology.keys := by
    apply Classical.byContradiction
    intro hc
    rw [outi c hc] at h1
    simp at h1
  have li' : (mi.traj c).length = li := (ri.run c hc).1
  have lv' : (mv.traj c).length = lv := (rv c hc).1
  have h0 : at' mi.traj 0 = at' mv.traj 0 := by
    funext d
    by_cases hd : d ∈ m.topology.keys
    · rw [(ri.init d hd).2, rv0 d hd (by omega)]
      rfl
    · unfold at'; rw [outi d hd, outv d hd]
  have := IsRun.agree ri.run rv h0 (fun d hd => by rw [outi d hd, outv d hd]) t (by omega) (by omega)
  exact congrFun this c

/-! ### C12: the output buffer -/

/-- The full claim: the run of prepared data never leaves the buffer. -/
def C12_full (α : Type) [Arith α] : Prop :=
  ∀ m : FCM α, CleanReachable m → m.debug = false → (FCM.runInference true m).1 ≠ .error .oob

/-- `ys` are the columns of a run (`Cols`: `ys[0]` the initial state, each further column computed from the one
before).  If the first column count whose last `extra_steps` steps each moved the sum of the activations by less than
`stability_diff` is at most `max_iter`, then `vectorized_run` fills exactly these columns and stays inside the matrix. -/
theorem C12_inside_partial {c : Cache α} {x0 : List α} {M : Int} {d : α} {extra : Nat} {ys : List (List α)}
    (hM : 0 < M) (he : 1 ≤ extra) (hc : Cols c x0 ys) (hl : ys.length ≤ M.toNat)
    (hs : StopsAt (Near d ys) extra ys.length) :
    vectorizedRun c x0 M d extra = .ok (rowsOf ys x0.length M.toNat) := by
  obtain ⟨zs, hz, hzl, hcase⟩ := vectorizedRun_spec (c := c) (x0 := x0) (d := d) hM he
  rcases hcase with ⟨h1, h2⟩ | ⟨-, h2, h3⟩ | ⟨e, y, -, h2, h3, h4⟩
  · rw [h1, hc.unique hz hs h2]
  · exfalso
    obtain ⟨s, a, b, hn⟩ := h3 ys.length hs.above hl
    exact hn ((hc.near_iff hz d s b (by omega)).1 (hs.window s a b))
  · exfalso
    have hzy : zs.length ≤ ys.length := hc.stop_le hz hs fun l a b => h4 l a (by omega)
    rcases Nat.lt_or_ge zs.length ys.length with hlt | hge
    · have hpz := hz.pos
      have hy0 : ys[zs.length - 1]? = some y := by
        rw [List.getElem?_eq_getElem (by omega)]
        rw [List.getElem?_eq_getElem (by omega)] at h2
        rw [hc.get_unique hz _ (by omega) (by omega)]
        exact h2
      have := hc.step (zs.length - 1) y ys[zs.length] hy0 (by
        rw [show zs.length - 1 + 1 = zs.length by omega, List.getElem?_eq_getElem hlt])
      rw [this] at h3
      cases h3
    · obtain ⟨s, a, b, hn⟩ := h4 ys.length hs.above (by omega)
      exact hn ((hc.near_iff hz d s b (by omega)).1 (hs.window s a b))

/-- Otherwise, when `max_iter` columns can be computed and one more, the run writes column `max_iter` of a matrix with
`max_iter` columns. -/
theorem C12_overruns {c : Cache α} {x0 : List α} {M : Int} {d : α} {extra : Nat} {ys : List (List α)} {y : List α}
    (hM : 0 < M) (he : 1 ≤ extra) (hc : Cols c x0 (ys ++ [y])) (hl : ys.length = M.toNat)
    (hs : ∀ l, extra < l → l ≤ M.toNat → ∃ s, l - extra ≤ s ∧ s < l ∧ ¬ Near d ys s) :
    vectorizedRun c x0 M d extra = .error .oob := by
  obtain ⟨zs, hz, hzl, hcase⟩ := vectorizedRun_spec (c := c) (x0 := x0) (d := d) hM he
  have hne : ∀ s, s < ys.length → (Near d (ys ++ [y]) s ↔ Near d ys s) := fun s h => Near.snoc h
  have hlen : (ys ++ [y]).length = ys.length + 1 := by simp
  rcases hcase with ⟨h1, h2⟩ | ⟨h1, -⟩ | ⟨e, x, -, h2, h3, -⟩
  · exfalso
    obtain ⟨s, a, b, hn⟩ := hs zs.length h2.above hzl
    exact hn ((hne s (by omega)).1 ((hz.near_iff hc d s b (by omega)).1 (h2.window s a b)))
  · exact h1
  · exfalso
    have hpz := hz.pos
    have hy0 : (ys ++ [y])[zs.length - 1]? = some x := by
      rw [List.getElem?_eq_getElem (by omega)] at h2 ⊢
      rw [hc.get_unique hz _ (by omega) (by omega)]
      exact h2
    have hlt : zs.length < (ys ++ [y]).length := by omega
    have := hc.step (zs.length - 1) x (ys ++ [y])[zs.length] hy0 (by
      rw [show zs.length - 1 + 1 = zs.length by omega, List.getElem?_eq_getElem hlt])
    rw [this] at h3
    cases h3

/-- With a `stability_diff` that no difference is below (0, or a negative number, in exact or floating point
arithmetic) the vectorised engine never returns normally. -/
theorem C12_zero_threshold {c : Cache α} {x0 : List α} {M : Int} {d : α} {extra : Nat} {out : List (List α)}
    (he : 1 ≤ extra) (hd : ∀ x : α, (abs x <? d) = false) : vectorizedRun c x0 M d extra ≠ .ok out := by
  intro h
  obtain ⟨ys, hc, hle, -, hs⟩ := vectorizedRun_cols he h
  have hab := hs.above
  have := hs.window (ys.length - 1) (by omega) (by omega)
  unfold Near at this
  rw [hd] at this
  cases this

/-! ### C13: the recorded trajectory -/

/-- The full claim: after a run with the vectorised engine the recorded trajectories are exactly the executed columns. -/
def C13_full (α : Type) [Arith α] : Prop :=
  ∀ m m' : FCM α, CleanReachable m → m.debug = false → m.topology ≠ [] → FCM.runInference true m = (.ok (), m') →
    ∃ c ys, m.prepare = .ok c ∧ Cols c m.start ys ∧ StopsAt (Near m.stabilityDiff ys) m.extraSteps ys.length ∧
      ∀ i (h : i < m.topology.keys.length), m'.traj m.topology.keys[i] = ys.map fun x => x.getD i (lit 0)

theorem vec_recorded (h2 : (lit 2 =? (lit 2 : α)) = true) {m m' : FCM α} (hm : CleanInv m) (hco : Coherent m)
    (hd : m.debug = false) (hne : m.topology ≠ []) (h : FCM.runInference true m = (.ok (), m')) :
    ∃ c ys k, m.prepare = .ok c ∧ Cols c m.start ys ∧ StopsAt (Near m.stabilityDiff ys) m.extraSteps ys.length ∧
      (ys.length : Int) ≤ m.maxIter ∧ k ≤ ys.length ∧
      (∀ i (h : i < m.topology.keys.length), m'.traj m.topology.keys[i] = (ys.map fun x => x.getD i (lit 0)).take k) ∧
      ((∀ x ∈ ys, (x.getD 0 (lit 0) =? lit 2) = false) →
        k = if (ys.length : Int) < m.maxIter then ys.length else ys.length - 1) := by
  obtain ⟨c, ys, k, hv⟩ := run_vec hm.inv hco hd hne h
  have hn : 0 < m.topology.length := List.length_pos_iff.2 hne
  have hle := hv.le
  obtain ⟨a, b⟩ := colIndex_rowsOf hn (show ys.length ≤ m.maxIter.toNat by omega) h2 hv.index
  refine ⟨c, ys, k, hv.prep, hv.cols, hv.stops, hle, a, fun i hi => (hv.traj_take h2 hne hi).2, fun hno => ?_⟩
  rw [b hno]
  have hpos := hv.stops.above
  split <;> split <;> omega

/-- The recorded trajectories are the executed columns, if fewer than `max_iter` columns were executed and the first
concept never takes the value 2.  With exactly `max_iter` columns the last one is missing.  In any case the recorded
trajectories are a prefix of the executed columns. -/
theorem C13_recorded_partial (h2 : (lit 2 =? (lit 2 : α)) = true) {m m' : FCM α} (hr : CleanReachable m)
    (hd : m.debug = false) (hne : m.topology ≠ []) (h : FCM.runInference true m = (.ok (), m')) :
    ∃ c ys k, m.prepare = .ok c ∧ Cols c m.start ys ∧ StopsAt (Near m.stabilityDiff ys) m.extraSteps ys.length ∧
      (ys.length : Int) ≤ m.maxIter ∧ k ≤ ys.length ∧
      (∀ i (h : i < m.topology.keys.length), m'.traj m.topology.keys[i] = (ys.map fun x => x.getD i (lit 0)).take k) ∧
      ((∀ x ∈ ys, (x.getD 0 (lit 0) =? lit 2) = false) →
        k = if (ys.length : Int) < m.maxIter then ys.length else ys.length - 1) :=
  vec_recorded h2 hr.clean hr.reachable.coherent hd hne h

/-- A run in which the first concept starts at 2 raises: nothing at all is read back. -/
theorem C13_two {m : FCM α} (hr : CleanReachable m) (hd : m.debug = false)
    (hne : m.topology ≠ []) (hx : (m.start.getD 0 (lit 0) =? lit 2) = true) : (FCM.runInference true m).1 ≠ .ok () := by
  intro hok
  obtain ⟨m', h⟩ : ∃ m', FCM.runInference true m = (.ok (), m') := ⟨_, by rw [← hok]⟩
  obtain ⟨c, ys, k, hv⟩ := run_vec hr.clean.inv hr.reachable.coherent hd hne h
  have hk0 : k = 0 := by
    have hlen : 0 < m.topology.length := List.length_pos_iff.2 hne
    have hrow : (rowsOf ys m.topology.length m.maxIter.toNat).headD [] =
        ys.map (fun x : List α => x.getD 0 (lit 0)) ++ List.replicate (m.maxIter.toNat - ys.length) (lit 2) := by
      obtain ⟨n', hn'⟩ : ∃ n', m.topology.length = n' + 1 := ⟨m.topology.length - 1, by omega⟩
      simp [rowsOf, hn', List.range_succ_eq_map]
    rw [hv.index, hrow]
    have hh := hv.cols.head
    cases ys with
    | nil => simp at hh
    | cons y ys =>
      have : y = m.start := by simpa using hh
      subst this
      unfold colIndex
      rw [List.map_cons, List.cons_append, List.findIdx?_cons, if_pos hx]
  have hlk : m.topology.keys.length = m.topology.length := by simp [Dict.keys]
  have hn : 0 < m.topology.keys.length := by rw [hlk]; exact List.length_pos_iff.2 hne
  have htr := hv.traj 0 hn
  rw [hk0, List.take_zero] at htr
  obtain ⟨m1, m2, h1, h2', h3, hf, ha, hm2⟩ := run_after hr.clean.inv h
  obtain ⟨e3, kt3, hall⟩ := decideAll_spec hm2 h3
  have hk : m2.topology.keys = m.topology.keys := by
    rw [← kt3]; exact view_keys hv.view
  obtain ⟨n, hn'⟩ := Dict.exists_get?_of_mem (d := m2.topology) (k := m.topology.keys[0])
    (by rw [hk]; exact List.getElem_mem hn)
  obtain ⟨xs, v, hxs, hdec, -⟩ := hall _ n hn'
  have : xs = [] := by
    have : m'.traj m.topology.keys[0] = xs := by
      unfold FCM.traj; rw [e3]; simp [hxs]
    rw [← this, htr]
  subst this
  exact decFn_nil _ _ (by simp; omega) _ hdec

/-! ### Concrete cases -/

namespace Ex

/-- Sufficient check for `KwOk`. -/
def kwOkB (f : FnInfo ℚ) : Bool := match f.fn with
  | .fuzzy => match kwFuzzy f.args with
    | .ok (m, v) => m.length == v.length
    | .error _ => false
  | _ => f.args.isEmpty

/-- Sufficient check for `VecFair`. -/
def fairB (m : FCM ℚ) : Bool :=
  m.topology.all (fun p => p.2.active && match p.2.fn with
    | none => true
    | some f => kwOkB f && (f.name != "fuzzy" || decide (0 < p.2.actvSum))) &&
  decide (m.arcList.Pairwise fun a b => ¬ (a.origin = b.origin ∧ a.dest = b.dest))

theorem kwOk_of {f : FnInfo ℚ} (h : kwOkB f = true) : KwOk f.fn f.args := by
  unfold kwOkB at h
  unfold KwOk
  cases hf : f.fn <;> rw [hf] at h <;> simp only at h ⊢
  case fuzzy =>
    cases hk : kwFuzzy f.args with
    | error e => rw [hk] at h; simp at h
    | ok p => rw [hk] at h; exact ⟨p.1, p.2, rfl, by simpa using h⟩
  all_goals first
    | exact List.isEmpty_iff.1 h
    | exact .inl (List.isEmpty_iff.1 h)

theorem fair_of {m : FCM ℚ} (h : fairB m = true) : VecFair m := by
  unfold fairB at h
  rw [Bool.and_eq_true, List.all_eq_true] at h
  obtain ⟨h, hp⟩ := h
  refine ⟨fun c n hn => ?_, (decide_eq_true_iff.1 hp :), fun c n f hn hf he => ?_, fun c n f hn hf => ?_⟩
  all_goals
    have := h _ (Dict.get?_mem hn)
    simp only [Bool.and_eq_true] at this
  · exact this.1
  · have h2 := this.2
    rw [hf] at h2
    simp only [Bool.and_eq_true, Bool.or_eq_true, he] at h2
    rcases h2.2 with h3 | h3
    · simp at h3
    · exact h3
  · have h2 := this.2
    rw [hf] at h2
    simp only [Bool.and_eq_true] at h2
    exact kwOk_of h2.1

/-- `map1` with a fuzzy concept f, fed by a and b, with membership function 0 below 0, 1 above 1. -/
def ops4 : List (Op ℚ) := ops1 ++
  [.addConcept "f" { type := some TYPE_FUZZY,
                     activationDict := some [("membership", .list [0, 1]), ("val_list", .list [0, 1])] },
   .addRelation "a" "f" (3/4), .addRelation "b" "f" (-1/2), .assignMaxIter 12]

def map4 : FCM ℚ := runOps ops4 sat0
theorem map4_clean : CleanReachable map4 := cleanReachable_of (.new sat0_new) ops4 (by decide +kernel)
theorem map4_fair : VecFair map4 := fair_of (by decide +kernel)
theorem map4_iter : (FCM.runInference true { map4 with debug := true }).1 = .ok () := by decide +kernel
theorem map4_vec : (FCM.runInference true { map4 with debug := false }).1 = .ok () := by decide +kernel

/-- The first concept is inactive. -/
def opsA : List (Op ℚ) :=
  [.addConcept "a" { isActive := some false }, .addConcept "b" {}, .addRelation "a" "b" (1/2), .initConcept "a" 1 true,
   .assignMaxIter 9]
def mapA : FCM ℚ := runOps opsA sat0
theorem mapA_clean : CleanReachable mapA := cleanReachable_of (.new sat0_new) opsA (by decide +kernel)

/-- Two relations from a to b. -/
def opsP : List (Op ℚ) :=
  [.addConcept "a" {}, .addConcept "b" { useMemory := some false }, .addRelation "a" "b" (1/4),
   .addRelation "a" "b" (1/2), .initConcept "a" 1 true, .assignMaxIter 9]
def mapP : FCM ℚ := runOps opsP sat0
theorem mapP_clean : CleanReachable mapP := cleanReachable_of (.new sat0_new) opsP (by decide +kernel)

/-- A fuzzy concept with a negative weight sum. -/
def opsF : List (Op ℚ) :=
  [.addConcept "a" {},
   .addConcept "f" { type := some TYPE_FUZZY, useMemory := some false,
                     activationDict := some [("membership", .list [0, 1]), ("val_list", .list [0, 1])] },
   .addRelation "a" "f" (-1/2), .initConcept "a" 1 true, .assignMaxIter 9]
def mapF : FCM ℚ := runOps opsF sat0
theorem mapF_clean : CleanReachable mapF := cleanReachable_of (.new sat0_new) opsF (by decide +kernel)

/-- As many columns are executed as the matrix has. -/
def ops6 : List (Op ℚ) := ops1 ++ [.assignMaxIter 6, .assignDebug false]
def map6 : FCM ℚ := runOps ops6 sat0
theorem map6_clean : CleanReachable map6 := cleanReachable_of (.new sat0_new) ops6 (by decide +kernel)

/-- The first concept starts at 2. -/
def mapTwo : FCM ℚ := runOps (ops1 ++ [.initConcept "a" 2 true, .assignMaxIter 9, .assignDebug false]) sat0
theorem mapTwo_clean : CleanReachable mapTwo := cleanReachable_of (.new sat0_new) _ (by decide +kernel)

/-- `map1` run by the vectorised engine. -/
def map5 : FCM ℚ := runOps (ops1 ++ [.assignDebug false]) sat0
theorem map5_clean : CleanReachable map5 := cleanReachable_of (.new sat0_new) _ (by decide +kernel)

theorem map2_clean : CleanReachable map2 := cleanReachable_of (.new sat0_new) _ (by decide +kernel)

end Ex

example (c : String) (t : Nat) (h1 : t < (((FCM.runInference true { Ex.map4 with debug := true }).2).traj c).length)
    (h2 : t < (((FCM.runInference true { Ex.map4 with debug := false }).2).traj c).length) :=
  C11_same_partial Ex.map4_clean Ex.map4_fair (Ex.run_eq Ex.map4_iter) (Ex.run_eq Ex.map4_vec) c t h1 h2

/-- The common trajectory of f in this case. -/
example : (((FCM.runInference true { Ex.map4 with debug := false }).2).traj "f").take 4 =
    (((FCM.runInference true { Ex.map4 with debug := true }).2).traj "f").take 4 := by decide +kernel

/-- The vectorised engine lets an inactive concept act. -/
theorem C11_counterexample_inactive : ¬ C11_full ℚ := by
  intro h
  have := h Ex.mapA _ _ Ex.mapA_clean (Ex.run_eq (by decide +kernel)) (Ex.run_eq (by decide +kernel)) "b" 1
    (by decide +kernel) (by decide +kernel)
  revert this
  decide +kernel

/-- The vectorised engine keeps only one of two parallel relations. -/
theorem C11_counterexample_parallel : ¬ C11_full ℚ := by
  intro h
  have := h Ex.mapP _ _ Ex.mapP_clean (Ex.run_eq (by decide +kernel)) (Ex.run_eq (by decide +kernel)) "b" 1
    (by decide +kernel) (by decide +kernel)
  revert this
  decide +kernel

/-- The vectorised engine does not normalise fuzzy concepts with a negative weight sum. -/
theorem C11_counterexample_fuzzy : ¬ C11_full ℚ := by
  intro h
  have := h Ex.mapF _ _ Ex.mapF_clean (Ex.run_eq (by decide +kernel)) (Ex.run_eq (by decide +kernel)) "f" 1
    (by decide +kernel) (by decide +kernel)
  revert this
  decide +kernel

/-- The iterative engine runs this map for its five iterations; the vectorised one writes outside its matrix. -/
theorem C12_counterexample : ¬ C12_full ℚ := fun h =>
  h Ex.map5 Ex.map5_clean (by decide +kernel) (by decide +kernel)

/-- The columns of the run of `map2`: they stabilise at column 6 of 9. -/
def Ex.cols2 : List (List ℚ) := [[1, 3/4, 0], [3/4, 1, 1/2], [1/4, 1, 1], [0, 1, 1], [0, 1, 1], [0, 1, 1]]

theorem Ex.cols2_run : vectorizedRun Ex.map2'.cache Ex.map2.start 9 Ex.map2.stabilityDiff 2 =
    .ok (rowsOf Ex.cols2 3 9) := by decide +kernel

example : ∃ ys, Cols Ex.map2'.cache Ex.map2.start ys ∧ ys.length ≤ (9 : Int).toNat ∧
    StopsAt (Near Ex.map2.stabilityDiff ys) 2 ys.length := by
  obtain ⟨ys, hc, hle, -, hs⟩ := vectorizedRun_cols (by decide) Ex.cols2_run
  exact ⟨ys, hc, by omega, hs⟩

example := C12_zero_threshold (c := Ex.map2'.cache) (x0 := Ex.map2.start) (M := 9) (d := (0 : ℚ)) (extra := 2)
  (out := rowsOf Ex.cols2 3 9) (by decide)
  (fun x => decide_eq_false (not_lt.2 (by show (0 : ℚ) ≤ if x < 0 then -x else x; split <;> linarith)))

example := C13_recorded_partial (by decide +kernel) Ex.map2_clean (by decide +kernel) (by decide +kernel) Ex.map2_run
example : Ex.map2'.traj "b" = Ex.cols2.map fun x => x.getD 1 (lit 0) := by decide +kernel
example : (FCM.runInference true Ex.mapTwo).1 ≠ .ok () :=
  C13_two Ex.mapTwo_clean (by decide +kernel) (by decide +kernel) (by decide +kernel)

/-- Six columns are executed, five recorded. -/
theorem C13_counterexample : ¬ C13_full ℚ := by
  intro h
  have hok : (FCM.runInference true Ex.map6).1 = .ok () := by decide +kernel
  obtain ⟨c, ys, hp, hc, hs, ht⟩ := h Ex.map6 _ Ex.map6_clean (by decide +kernel) (by decide +kernel) (Ex.run_eq hok)
  have hl := congrArg List.length (ht 0 (by decide +kernel))
  have h5 : ((FCM.runInference true Ex.map6).2.traj (Ex.map6.topology.keys[0]'(by decide +kernel))).length = 5 := by
    decide +kernel
  rw [h5, List.length_map] at hl
  have hall : (Ex.map6.prepare.bind fun c => vectorizedRun c Ex.map6.start 6 Ex.map6.stabilityDiff 2) =
      .ok (rowsOf Ex.cols2 3 6) := by decide +kernel
  have hin := C12_inside_partial (M := 6) (extra := 2) (by decide) (by decide) hc (by rw [← hl]; decide) hs
  rw [hp] at hall
  have := Except.ok.inj (hall.symm.trans hin)
  have := congrArg (fun r : List (List ℚ) => (r.headD []).getD 5 (lit 0)) this
  have e2 : ((rowsOf ys Ex.map6.start.length (6 : Int).toNat).headD []).getD 5 (lit 0) = (2 : ℚ) := by
    have hst : Ex.map6.start.length = 3 := by decide +kernel
    obtain ⟨y1, y2, y3, y4, y5, rfl⟩ : ∃ y1 y2 y3 y4 y5, ys = [y1, y2, y3, y4, y5] := by
      match ys, hl with
      | [y1, y2, y3, y4, y5], _ => exact ⟨_, _, _, _, _, rfl⟩
    rw [hst]
    rfl
  have : ((rowsOf Ex.cols2 3 6).headD []).getD 5 (lit 0) = (2 : ℚ) := this.trans e2
  revert this
  decide +kernel

end PyFCM
