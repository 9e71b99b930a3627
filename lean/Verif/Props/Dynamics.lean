import Verif.Lemmas.Congr
import Verif.Props.Decision
import Verif.Props.Functions
import Verif.Props.Vector
/-
C07, C54: invariants of all trajectories.  C10, C15: what trajectories do not depend on.
-/
namespace PyFCM
open Arith Spec

set_option linter.unusedSectionVars false

/-! ### Where recorded values come from -/

section
variable {α : Type} [Arith α]

/-- Every value after the first is a result of the concept's activation function (iterative engine). -/
theorem iter_value {m m' : FCM α} {len : Nat} (h : IterRun m m' len) {c : String} (hc : c ∈ m.topology.keys) {t : Nat}
    (ht : t + 1 < len) : ∃ n f x, m.topology.get? c = some n ∧ n.fn = some f ∧
      callActv f.fn x f.args = .ok (at' m'.traj (t + 1) c) := by
  have hn := (h.run c hc).2 t ht
  unfold next at hn
  obtain ⟨n, hg⟩ := Dict.exists_get?_of_mem hc
  have hcon : m.net.concept c = n.toSpec := by
    show (m.topology.get? c).bind _ = _
    rw [hg]; rfl
  rw [hcon] at hn
  cases hs : n.toSpec with
  | none => rw [hs] at hn; simp at hn
  | some k =>
    rw [hs] at hn
    unfold Node.toSpec at hs
    split at hs
    case h_2 => cases hs
    case h_1 ex um f he hu hf =>
      cases hs
      simp only [Option.map_some, Option.some.injEq] at hn
      split at hn
      · exact ⟨n, f, _, hg, hf, hn⟩
      · split at hn
        · cases hn
        · exact ⟨n, f, _, hg, hf, hn⟩

/-- A predicate that holds of the initial values and of all results of the activation functions holds of all columns
of the vectorised engine. -/
theorem vec_all {P : α → Prop} {m : FCM α} (hm : Inv m) {c : Cache α} (hp : m.prepare = .ok c) {ys : List (List α)}
    (hy : Cols c m.start ys)
    (hstep : ∀ d n f args x v, m.topology.get? d = some n → n.fn = some f → n.argsVect = some args →
      execActvFunction f.fn.id x args = .ok v → P v)
    (h0 : ∀ d ∈ m.topology.keys, P (at' m.traj 0 d)) : ∀ y ∈ ys, ∀ v ∈ y, P v := by
  have hsl : m.start.length = m.topology.length := by simp [FCM.start, Dict.keys]
  suffices h : ∀ t (ht : t < ys.length), ∀ v ∈ ys[t], P v by
    intro y hyy
    obtain ⟨t, ht, rfl⟩ := List.getElem_of_mem hyy
    exact h t ht
  intro t
  cases t with
  | zero =>
    intro ht v hv
    have a := hy.head
    rw [List.getElem?_eq_getElem ht] at a
    rw [Option.some.inj a] at hv
    obtain ⟨d, hd, rfl⟩ := List.mem_map.1 hv
    exact h0 d hd
  | succ t =>
    intro ht v hv
    have a := hy.step t ys[t] ys[t + 1] (List.getElem?_eq_getElem (by omega)) (List.getElem?_eq_getElem ht)
    rw [hsl] at a
    obtain ⟨i, hi, rfl⟩ := List.getElem_of_mem hv
    have hl := mapM_length a
    rw [List.length_range] at hl
    have hi' : i < m.topology.length := by omega
    have hyi := mapM_getElem a i (by simpa using hi') hi
    rw [List.getElem_range] at hyi
    obtain ⟨si, mem, r, id, args, x, -, -, -, h4, h5, -, h7⟩ := vecNode_ok.1 hyi
    obtain ⟨hrow, -, -⟩ := prepare_ok hp
    obtain ⟨f, id', args', um, ex, hr⟩ := hrow i hi'
    rw [hr.functions] at h4; cases h4
    rw [hr.functionArgs] at h5; cases h5
    have hg := get?_getElem hm.tnd i hi'
    have hfn : f.Ok := (hm.nodes _ _ hg).fn f hr.fn
    have hid : id = f.fn.id := by
      have := hr.const
      rw [getConst_eq, hfn] at this
      simpa using this.symm
    rw [hid] at h7
    exact hstep _ _ f _ x _ hg hr.fn hr.vect h7

end

/-! ### C07: nothing leaves [-1,1] -/

/-- Positive slope, memberships in [0,1] over ascending values (keyword arguments, as the iterative engine uses them). -/
def TameArgs (f : FnInfo ℝ) : Prop := match f.fn with
  | .relm => ∀ l, ("lambda_val", ArgVal.num l) ∈ f.args → 0 < l
  | .fuzzy => ∀ mb vl, ("membership", ArgVal.arr mb) ∈ f.args → ("val_list", ArgVal.arr vl) ∈ f.args →
      mb.length = vl.length ∧ vl.Pairwise (· ≤ ·) ∧ ∀ x ∈ mb, 0 ≤ x ∧ x ≤ 1
  | _ => True

/-- The same of the argument vector, which the vectorised engine uses: for `fuzzy` its first half are the memberships,
its second half the values. -/
def TameVect (f : ActFn) (vect : List ℝ) : Prop := match f with
  | .relm => ∀ l, vect.head? = some l → 0 < l
  | .fuzzy => ∃ mb vl, vect = mb ++ vl ∧ mb.length = vl.length ∧ vl.Pairwise (· ≤ ·) ∧ ∀ x ∈ mb, 0 ≤ x ∧ x ≤ 1
  | _ => True

theorem callActv_range {f : FnInfo ℝ} (ht : TameArgs f) {x v : ℝ} (h : callActv f.fn x f.args = .ok v) :
    -1 ≤ v ∧ v ≤ 1 := by
  unfold TameArgs at ht
  cases hf : f.fn <;> rw [hf] at h ht <;> unfold callActv at h <;> simp only at h ht
  case bistate =>
    split at h <;> cases h
    rcases C06_bistate x with e | e <;> rw [e] <;> norm_num
  case threestate =>
    split at h <;> cases h
    rcases C06_threestate x with e | e | e <;> rw [e] <;> norm_num
  case saturation =>
    split at h <;> cases h
    have := C06_saturation x
    exact ⟨by linarith [this.1], this.2⟩
  case sigmoid =>
    obtain ⟨l, -, h⟩ := exc_bind_ok h
    obtain ⟨r, hr, h1, h2⟩ := C06_sigmoid x l
    rw [hr] at h; cases h
    exact ⟨by linarith, h2.le⟩
  case sigmoidHip =>
    obtain ⟨l, -, h⟩ := exc_bind_ok h
    obtain ⟨r, hr, h1, h2⟩ := C06_sigmoid_hip x l
    rw [hr] at h; cases h
    exact ⟨h1.le, h2.le⟩
  case relm =>
    obtain ⟨l, hl, h⟩ := exc_bind_ok h
    have hpos : 0 < l := by
      rcases kw1_vect hl with ⟨-, rfl⟩ | e
      · simp
      · exact ht l (by rw [e]; simp)
    obtain ⟨r, hr, h1, h2⟩ := C06_relm x l hpos
    rw [hr] at h; cases h
    exact ⟨by linarith, h2⟩
  case gceq =>
    obtain ⟨l, -, h⟩ := exc_bind_ok h
    cases h
    exact C06_gceq x l
  case lceq =>
    obtain ⟨l, -, h⟩ := exc_bind_ok h
    cases h
    exact C06_lceq x l
  case fuzzy =>
    obtain ⟨⟨mb, vl⟩, hl, h⟩ := exc_bind_ok h
    have hmem : ("membership", ArgVal.arr mb) ∈ f.args ∧ ("val_list", ArgVal.arr vl) ∈ f.args := by
      rcases kwFuzzy_cases hl with e | e <;> rw [e] <;> simp
    obtain ⟨a, b, c⟩ := ht mb vl hmem.1 hmem.2
    exact C06_fuzzy b a c h

theorem execActv_range {f : ActFn} {vect : List ℝ} (ht : TameVect f vect) {x v : ℝ}
    (h : execActvFunction f.id x vect = .ok v) : -1 ≤ v ∧ v ≤ 1 := by
  cases f
  case bistate =>
    cases h
    rcases C06_bistate x with e | e <;> rw [e] <;> norm_num
  case threestate =>
    cases h
    rcases C06_threestate x with e | e | e <;> rw [e] <;> norm_num
  case saturation =>
    cases h
    have := C06_saturation x
    exact ⟨by linarith [this.1], this.2⟩
  case sigmoid =>
    obtain ⟨l, h⟩ : ∃ l, sigmoid x l = .ok v := by cases vect <;> exact ⟨_, h⟩
    obtain ⟨r, hr, h1, h2⟩ := C06_sigmoid x l
    rw [hr] at h; cases h
    exact ⟨by linarith, h2.le⟩
  case sigmoidHip =>
    obtain ⟨l, h⟩ : ∃ l, sigmoidHip x l = .ok v := by cases vect <;> exact ⟨_, h⟩
    obtain ⟨r, hr, h1, h2⟩ := C06_sigmoid_hip x l
    rw [hr] at h; cases h
    exact ⟨h1.le, h2.le⟩
  case relm =>
    obtain ⟨l, hl, h⟩ : ∃ l, 0 < l ∧ relm x l = .ok v := by
      cases vect with
      | nil => exact ⟨_, by simp, h⟩
      | cons a vect => exact ⟨a, ht a rfl, h⟩
    obtain ⟨r, hr, h1, h2⟩ := C06_relm x l hl
    rw [hr] at h; cases h
    exact ⟨by linarith, h2⟩
  case gceq =>
    obtain ⟨l, h⟩ : ∃ l, gceq x l = v := by cases vect <;> cases h <;> exact ⟨_, rfl⟩
    rw [← h]; exact C06_gceq x l
  case lceq =>
    obtain ⟨l, h⟩ : ∃ l, lceq x l = v := by cases vect <;> cases h <;> exact ⟨_, rfl⟩
    rw [← h]; exact C06_lceq x l
  case fuzzy =>
    obtain ⟨mb, vl, rfl, hl, hs, hr⟩ := ht
    have hhalf : (mb ++ vl).length / 2 = mb.length := by simp; omega
    have h' : fuzzySet x ((mb ++ vl).take ((mb ++ vl).length / 2)) ((mb ++ vl).drop ((mb ++ vl).length / 2)) = .ok v := h
    rw [hhalf, List.take_left, List.drop_left] at h'
    exact C06_fuzzy hs hl hr h'

/-- Bounds of the recorded values are bounds of the final value. -/
theorem final_between {m m' : FCM ℝ} (hr : Reachable m) (h : FCM.runInference true m = (.ok (), m')) {c : String}
    (hc : c ∈ m.topology.keys) {lo hi : ℝ} (hb : ∀ x ∈ m'.traj c, lo ≤ x ∧ x ≤ hi) :
    ∃ v, m'.getConceptValue c = some v ∧ lo ≤ v ∧ v ≤ hi := by
  obtain ⟨v, hv, hdec⟩ := C08_final_value hr h hc
  exact ⟨v, hv, C08_between hb ((decFn_eq hr.inv.dec _ _ _).2 hdec)⟩

/-- Iterative engine: initial activations in [-1,1] and tame arguments keep every recorded and every final value in
[-1,1], whatever the weights, the topology and the decision function. -/
theorem C07_iterative {m m' : FCM ℝ} (hr : Reachable m) (hd : m.debug = true)
    (ht : ∀ c n f, m.topology.get? c = some n → n.fn = some f → TameArgs f)
    (h0 : ∀ c ∈ m.topology.keys, -1 ≤ at' m.traj 0 c ∧ at' m.traj 0 c ≤ 1)
    (h : FCM.runInference true m = (.ok (), m')) {c : String} (hc : c ∈ m.topology.keys) :
    (∀ x ∈ m'.traj c, -1 ≤ x ∧ x ≤ 1) ∧ ∃ v, m'.getConceptValue c = some v ∧ -1 ≤ v ∧ v ≤ 1 := by
  obtain ⟨len, hi⟩ := run_iter hr.inv hd h
  have hall : ∀ x ∈ m'.traj c, -1 ≤ x ∧ x ≤ 1 := by
    intro x hx
    obtain ⟨t, htl, rfl⟩ := List.getElem_of_mem hx
    have e : (m'.traj c)[t] = at' m'.traj t c := by simp [at', List.getD_eq_getElem?_getD, htl]
    rw [e]
    cases t with
    | zero => rw [(hi.init c hc).2]; exact h0 c hc
    | succ t =>
      obtain ⟨n, f, x, hg, hf, hcall⟩ := iter_value hi hc (by rw [← (hi.run c hc).1]; exact htl)
      exact callActv_range (ht c n f hg hf) hcall
  exact ⟨hall, final_between hr h hc hall⟩

/-- Every value the vectorised engine computes, recorded or not. -/
theorem vec_range {m : FCM ℝ} (hm : Inv m)
    (ht : ∀ c n f v, m.topology.get? c = some n → n.fn = some f → n.argsVect = some v → TameVect f.fn v)
    (h0 : ∀ c ∈ m.topology.keys, -1 ≤ at' m.traj 0 c ∧ at' m.traj 0 c ≤ 1) {c : Cache ℝ} (hp : m.prepare = .ok c)
    {ys : List (List ℝ)} (hy : Cols c m.start ys) : ∀ y ∈ ys, ∀ v ∈ y, -1 ≤ v ∧ v ≤ 1 :=
  vec_all hm hp hy (fun _ _ f _ _ _ hg hf ha hx => execActv_range (ht _ _ f _ hg hf ha) hx) h0

/-- Vectorised engine. -/
theorem C07_vectorised {m m' : FCM ℝ} (hr : Reachable m) (hd : m.debug = false)
    (ht : ∀ c n f v, m.topology.get? c = some n → n.fn = some f → n.argsVect = some v → TameVect f.fn v)
    (h0 : ∀ c ∈ m.topology.keys, -1 ≤ at' m.traj 0 c ∧ at' m.traj 0 c ≤ 1)
    (h : FCM.runInference true m = (.ok (), m')) {c : String} (hc : c ∈ m.topology.keys) :
    (∀ x ∈ m'.traj c, -1 ≤ x ∧ x ≤ 1) ∧ ∃ v, m'.getConceptValue c = some v ∧ -1 ≤ v ∧ v ≤ 1 := by
  have hne : m.topology ≠ [] := by
    intro e
    rw [e] at hc
    simp [Dict.keys] at hc
  obtain ⟨cc, ys, k, hv⟩ := run_vec hr.inv hr.coherent hd hne h
  have hrng := vec_range hr.inv ht h0 hv.prep hv.cols
  have hi := List.idxOf_lt_length_iff.2 hc
  have htr := (hv.traj_take (Exact.two (α := ℝ)) hne hi).2
  rw [keys_getElem_idxOf hc] at htr
  have hall : ∀ x ∈ m'.traj c, -1 ≤ x ∧ x ≤ 1 := by
    intro x hx
    rw [htr] at hx
    obtain ⟨y, hy, rfl⟩ := List.mem_map.1 (List.mem_of_mem_take hx)
    rw [List.getD_eq_getElem?_getD]
    cases hyx : y[m.topology.keys.idxOf c]? with
    | none => simp
    | some v => exact hrng y hy v (List.mem_of_getElem? hyx)
  exact ⟨hall, final_between hr h hc hall⟩

/-- In a history without exceptions the two descriptions of the arguments agree. -/
theorem tame_of_args {m : FCM ℝ} (hr : CleanReachable m)
    (ht : ∀ c n f, m.topology.get? c = some n → n.fn = some f → TameArgs f ∧ KwOk f.fn f.args) :
    ∀ c n f v, m.topology.get? c = some n → n.fn = some f → n.argsVect = some v → TameVect f.fn v := by
  intro c n f v hg hf hv
  obtain ⟨h1, h2⟩ := ht c n f hg hf
  have hp := (hr.clean.good _ _ hg).vect f v hf hv
  unfold TameArgs at h1
  unfold KwOk at h2
  unfold TameVect
  cases hfn : f.fn <;> rw [hfn] at h1 h2 <;> simp only at h1 h2 ⊢
  case relm =>
    intro l hl
    rcases h2 with e | ⟨l', e⟩
    · rw [e, vect_nil] at hp; cases hp; cases hl
    · rw [e, vect_num] at hp; cases hp; cases hl
      exact h1 l (by rw [e]; simp)
  case fuzzy =>
    obtain ⟨mb, vl, hk, hl⟩ := h2
    rw [kwFuzzy_vect hk] at hp
    cases hp
    have hmem : ("membership", ArgVal.arr mb) ∈ f.args ∧ ("val_list", ArgVal.arr vl) ∈ f.args := by
      rcases kwFuzzy_cases hk with e | e <;> rw [e] <;> simp
    obtain ⟨a, b, c⟩ := h1 mb vl hmem.1 hmem.2
    exact ⟨mb, vl, rfl, a, b, c⟩

/-- On tame maps the in-band end marker 2.0 (C13) does no harm: only a run that fills the whole matrix loses its last
column. -/
theorem C13_tame_partial {m m' : FCM ℝ} (hr : CleanReachable m) (hd : m.debug = false) (hne : m.topology ≠ [])
    (ht : ∀ c n f v, m.topology.get? c = some n → n.fn = some f → n.argsVect = some v → TameVect f.fn v)
    (h0 : ∀ c ∈ m.topology.keys, -1 ≤ at' m.traj 0 c ∧ at' m.traj 0 c ≤ 1)
    (h : FCM.runInference true m = (.ok (), m')) :
    ∃ c ys, m.prepare = .ok c ∧ Cols c m.start ys ∧ StopsAt (Near m.stabilityDiff ys) m.extraSteps ys.length ∧
      ∀ i (h : i < m.topology.keys.length), m'.traj m.topology.keys[i] =
        (ys.map fun x => x.getD i (lit 0)).take (if (ys.length : Int) < m.maxIter then ys.length else ys.length - 1) := by
  obtain ⟨c, ys, k, hp, hc, hs, -, -, htr, hno⟩ := C13_recorded_partial (Exact.two (α := ℝ)) hr hd hne h
  refine ⟨c, ys, hp, hc, hs, fun i hi => ?_⟩
  rw [htr i hi, hno]
  intro x hx
  have hrng := vec_range hr.clean.inv ht h0 hp hc x hx
  have : -1 ≤ x.getD 0 (lit 0) ∧ x.getD 0 (lit 0) ≤ 1 := by
    rw [List.getD_eq_getElem?_getD]
    cases hyx : x[0]? with
    | none => simp
    | some v => exact hrng v (List.mem_of_getElem? hyx)
  rw [real_eq_f]
  intro e
  rw [e] at this
  norm_num [real_lit] at this

/-! ### C54: a map at rest stays at rest -/

/-- An activation function with f(0) = 0. -/
def Odd0 (f : ActFn) : Prop := f = .sigmoidHip ∨ f = .saturation ∨ f = .gceq ∨ f = .lceq ∨ f = .relm

/-- All concepts use one of these functions and KOSKO excitation. -/
def Restful (m : FCM ℝ) : Prop :=
  ∀ c n, m.topology.get? c = some n → (∀ f, n.fn = some f → Odd0 f.fn) ∧ ∀ ex, n.exec = some ex → ex.2 = "KOSKO"

theorem sigmoidHip_zero (l : ℝ) : sigmoidHip 0 l = .ok 0 := by
  rw [sigmoidHip_real]
  simp

theorem relm_zero {l v : ℝ} (h : relm 0 l = .ok v) : v = 0 := by
  by_cases hl : l = 0
  · subst hl
    rw [(C06_relm_slope 0 (le_refl _)).2] at h
    cases h
  · rw [relm_real hl] at h
    norm_num at h
    exact h.symm

theorem callActv_zero {f : FnInfo ℝ} (ho : Odd0 f.fn) {v : ℝ} (h : callActv f.fn 0 f.args = .ok v) : v = 0 := by
  rcases ho with e | e | e | e | e <;> rw [e] at h <;> unfold callActv at h <;> simp only at h
  · obtain ⟨l, -, h⟩ := exc_bind_ok h
    rw [sigmoidHip_zero] at h
    cases h; rfl
  · split at h <;> cases h
    rw [saturation_real]; simp
  · obtain ⟨l, -, h⟩ := exc_bind_ok h
    cases h
    rw [gceq_real]; simp
  · obtain ⟨l, -, h⟩ := exc_bind_ok h
    cases h
    rw [lceq_real]; simp
  · obtain ⟨l, -, h⟩ := exc_bind_ok h
    exact relm_zero h

theorem execActv_zero {f : ActFn} (ho : Odd0 f) {vect : List ℝ} {v : ℝ} (h : execActvFunction f.id 0 vect = .ok v) :
    v = 0 := by
  rcases ho with rfl | rfl | rfl | rfl | rfl
  · obtain ⟨l, h⟩ : ∃ l, sigmoidHip 0 l = .ok v := by cases vect <;> exact ⟨_, h⟩
    rw [sigmoidHip_zero] at h
    cases h; rfl
  · cases h
    rw [saturation_real]; simp
  · obtain ⟨l, h⟩ : ∃ l, gceq 0 l = v := by cases vect <;> cases h <;> exact ⟨_, rfl⟩
    rw [← h, gceq_real]; simp
  · obtain ⟨l, h⟩ : ∃ l, lceq 0 l = v := by cases vect <;> cases h <;> exact ⟨_, rfl⟩
    rw [← h, lceq_real]; simp
  · obtain ⟨l, h⟩ : ∃ l, relm 0 l = .ok v := by cases vect <;> exact ⟨_, h⟩
    exact relm_zero h

theorem sum_zero {xs : List ℝ} (h : ∀ x ∈ xs, x = 0) : total xs = 0 := by
  rw [total_real]
  exact List.sum_eq_zero h

theorem FnInfo.Ok.not_fuzzy {f : FnInfo ℝ} (h : f.Ok) (ho : Odd0 f.fn) : f.name ≠ "fuzzy" := by
  intro e
  unfold FnInfo.Ok at h
  rw [e] at h
  have : f.fn = .fuzzy := (Option.some.inj h).symm
  rw [this] at ho
  rcases ho with h | h | h | h | h <;> cases h

/-- Iterative engine. -/
theorem C54_iterative {m m' : FCM ℝ} (hr : Reachable m) (hd : m.debug = true) (hq : Restful m)
    (h0 : ∀ c ∈ m.topology.keys, at' m.traj 0 c = 0) (h : FCM.runInference true m = (.ok (), m')) {c : String}
    (hc : c ∈ m.topology.keys) : (∀ x ∈ m'.traj c, x = 0) ∧ m'.getConceptValue c = some 0 := by
  obtain ⟨len, hi⟩ := run_iter hr.inv hd h
  have hout : ∀ d, d ∉ m.topology.keys → ∀ t, at' m'.traj t d = 0 := by
    intro d hd t
    unfold at'
    rw [hi.inv.traj_nil (by rw [hi.keys]; exact hd)]
    simp
  have key : ∀ t, t < len → ∀ d, at' m'.traj t d = 0 := by
    intro t
    induction t with
    | zero =>
      intro _ d
      by_cases hd : d ∈ m.topology.keys
      · rw [(hi.init d hd).2]; exact h0 d hd
      · exact hout d hd 0
    | succ t ih =>
      intro ht d
      by_cases hd : d ∈ m.topology.keys
      · have hn := (hi.run d hd).2 t ht
        obtain ⟨n, hg⟩ := Dict.exists_get?_of_mem hd
        have hA : at' m'.traj t = fun _ => 0 := by funext e; exact ih (by omega) e
        rw [hA] at hn
        have hin : total (inputs m.net (fun _ => (0 : ℝ)) d) = 0 := by
          apply sum_zero
          intro x hx
          unfold inputs at hx
          obtain ⟨r, -, hx⟩ := List.mem_filterMap.1 hx
          unfold along at hx
          split at hx
          case isFalse => cases hx
          split at hx
          case h_2 => cases hx
          rename_i o ho
          split at hx
          case isFalse => cases hx
          have ho' : (m.topology.get? r.origin).bind Node.toSpec = some o := ho
          cases hgo : m.topology.get? r.origin with
          | none => rw [hgo] at ho'; cases ho'
          | some no =>
            rw [hgo] at ho'
            change no.toSpec = some o at ho'
            unfold Node.toSpec at ho'
            split at ho'
            case h_2 => cases ho'
            case h_1 ex um f he hu hf =>
              cases ho'
              have := (hq _ _ hgo).2 ex he
              simp only [source, this] at hx
              simpa using hx.symm
        unfold next at hn
        have hcon : m.net.concept d = n.toSpec := by
          show (m.topology.get? d).bind _ = _
          rw [hg]; rfl
        rw [hcon] at hn
        cases hs : n.toSpec with
        | none => rw [hs] at hn; simp at hn
        | some k =>
          rw [hs] at hn
          unfold Node.toSpec at hs
          split at hs
          case h_2 => cases hs
          case h_1 ex um f he hu hf =>
            cases hs
            have hko := (hq _ _ hg).2 ex he
            have ho := (hq _ _ hg).1 f hf
            have hnf := FnInfo.Ok.not_fuzzy ((hr.inv.nodes _ _ hg).fn f hf) ho
            simp only [Option.map_some, Option.some.injEq, hin, source, hko, if_neg hnf] at hn
            have hz : (if um = true then (0 : ℝ) + (if ("KOSKO" == "PAPAGEORGIUS") = true then
                lit 2 * 0 - lit 1 else 0) else 0) = 0 := by
              have : ("KOSKO" == "PAPAGEORGIUS") = false := by decide
              rw [this]
              split <;> simp
            rw [hz] at hn
            exact callActv_zero ho hn
      · exact hout d hd _
  have hall : ∀ x ∈ m'.traj c, x = 0 := by
    intro x hx
    obtain ⟨t, htl, rfl⟩ := List.getElem_of_mem hx
    have e : (m'.traj c)[t] = at' m'.traj t c := by simp [at', List.getD_eq_getElem?_getD, htl]
    rw [e]
    exact key t (by rw [← (hi.run c hc).1]; exact htl) c
  refine ⟨hall, ?_⟩
  obtain ⟨v, hv, h1, h2⟩ := final_between hr h hc (lo := 0) (hi := 0) (fun x hx => by rw [hall x hx]; simp)
  rw [hv, le_antisymm h2 h1]

theorem dotCol_allzero {s : List ℝ} (h : ∀ x ∈ s, x = 0) (mat : List (List ℝ)) (j : Nat) : dotCol s mat j = 0 := by
  induction s generalizing mat with
  | nil => simp [dotCol, pysum]
  | cons a s ih =>
    cases mat with
    | nil => simp [dotCol, pysum]
    | cons r mat =>
      rw [dotCol_cons, ih (fun x hx => h x (List.mem_cons_of_mem _ hx)), h a (List.mem_cons_self ..)]
      simp

/-- Vectorised engine. -/
theorem C54_vectorised {m m' : FCM ℝ} (hr : Reachable m) (hd : m.debug = false) (hq : Restful m)
    (h0 : ∀ c ∈ m.topology.keys, at' m.traj 0 c = 0) (h : FCM.runInference true m = (.ok (), m')) {c : String}
    (hc : c ∈ m.topology.keys) : (∀ x ∈ m'.traj c, x = 0) ∧ m'.getConceptValue c = some 0 := by
  have hne : m.topology ≠ [] := by
    intro e
    rw [e] at hc
    simp [Dict.keys] at hc
  obtain ⟨cc, ys, k, hv⟩ := run_vec hr.inv hr.coherent hd hne h
  have hsl : m.start.length = m.topology.length := by simp [FCM.start, Dict.keys]
  obtain ⟨hrow, -, hav⟩ := prepare_ok hv.prep
  have key : ∀ t (ht : t < ys.length), ∀ v ∈ ys[t], v = 0 := by
    intro t
    induction t with
    | zero =>
      intro ht v hvv
      have a := hv.cols.head
      rw [List.getElem?_eq_getElem ht] at a
      rw [Option.some.inj a] at hvv
      obtain ⟨d, hd, rfl⟩ := List.mem_map.1 hvv
      exact h0 d hd
    | succ t ih =>
      intro ht v hvv
      have a := hv.cols.step t ys[t] ys[t + 1] (List.getElem?_eq_getElem (by omega)) (List.getElem?_eq_getElem ht)
      have hxl : (ys[t]).length = m.topology.length := by rw [hv.cols.len _ (List.getElem_mem _), hsl]
      rw [hsl] at a
      have hs : ∀ x ∈ List.zipWith desat cc.avoidSaturation ys[t], x = 0 := by
        intro x hx
        obtain ⟨j, hj, rfl⟩ := List.getElem_of_mem hx
        have hj' : j < m.topology.length := by rw [List.length_zipWith] at hj; omega
        obtain ⟨f, id, args, um, ex, hrj⟩ := hrow j hj'
        have hg := get?_getElem hr.inv.tnd j hj'
        have hko := (hq _ _ hg).2 ex hrj.exec
        have hav' := hrj.avoid
        rw [List.getElem?_eq_getElem (by omega)] at hav'
        rw [List.getElem_zipWith, Option.some.inj hav', hko, ih (by omega) _ (List.getElem_mem (by omega))]
        have : ("KOSKO" == "PAPAGEORGIUS") = false := by decide
        rw [this]
        rfl
      obtain ⟨i, hi, rfl⟩ := List.getElem_of_mem hvv
      have hl := mapM_length a
      rw [List.length_range] at hl
      have hi' : i < m.topology.length := by omega
      have hyi := mapM_getElem a i (by simpa using hi') hi
      rw [List.getElem_range] at hyi
      obtain ⟨si, mem, r, id, args, x, h1, h2, h3, h4, h5, h6, h7⟩ := vecNode_ok.1 hyi
      obtain ⟨f, id', args', um, ex, hri⟩ := hrow i hi'
      rw [hri.functions] at h4; cases h4
      rw [hri.functionArgs] at h5; cases h5
      have hg := get?_getElem hr.inv.tnd i hi'
      have hfn : f.Ok := (hr.inv.nodes _ _ hg).fn f hri.fn
      have ho := (hq _ _ hg).1 f hri.fn
      have hid : id = f.fn.id := by
        have := hri.const
        rw [getConst_eq, hfn] at this
        simpa using this.symm
      rw [hri.normalize, if_neg (FnInfo.Ok.not_fuzzy hfn ho)] at h3
      cases h3
      have hsi : si = 0 := hs si (List.mem_of_getElem? h1)
      have hz : (if mem = true then dotCol (List.zipWith desat cc.avoidSaturation ys[t]) cc.relationMatrix i + si
          else dotCol (List.zipWith desat cc.avoidSaturation ys[t]) cc.relationMatrix i) = 0 := by
        rw [dotCol_allzero hs, hsi]
        split <;> simp
      rw [hz] at h6
      unfold normInput at h6
      rw [Exact.lt_self] at h6
      cases h6
      rw [hid] at h7
      exact execActv_zero ho h7
  have hi := List.idxOf_lt_length_iff.2 hc
  have htr := (hv.traj_take (Exact.two (α := ℝ)) hne hi).2
  rw [keys_getElem_idxOf hc] at htr
  have hall : ∀ x ∈ m'.traj c, x = 0 := by
    intro x hx
    rw [htr] at hx
    obtain ⟨y, hy, rfl⟩ := List.mem_map.1 (List.mem_of_mem_take hx)
    obtain ⟨t, ht, rfl⟩ := List.getElem_of_mem hy
    rw [List.getD_eq_getElem?_getD]
    cases hyx : (ys[t])[m.topology.keys.idxOf c]? with
    | none => simp
    | some v => exact key t ht v (List.mem_of_getElem? hyx)
  refine ⟨hall, ?_⟩
  obtain ⟨v, hv, h1, h2⟩ := final_between hr h hc (lo := 0) (hi := 0) (fun x hx => by rw [hall x hx]; simp)
  rw [hv, le_antisymm h2 h1]

/-! ### C10: inactive concepts -/

section
variable {α : Type} [Arith α]

/-- The relations that leave an active concept. -/
def acting (N : Net α) : List (Rel α) :=
  N.rels.filter fun r => match N.concept r.origin with
    | some k => k.active
    | none => false

theorem inputs_acting (N : Net α) (A : String → α) (c : String) :
    inputs N A c = (acting N).filterMap (along N A c) := by
  unfold inputs acting
  induction N.rels with
  | nil => rfl
  | cons r rs ih =>
    have hcase : (match N.concept r.origin with | some k => k.active | none => false) = false → along N A c r = none := by
      intro h
      unfold along
      split
      · split
        · rename_i o ho
          rw [ho] at h
          simp [h]
        · rfl
      · rfl
    rw [List.filterMap_cons, List.filter_cons]
    cases hb : (match N.concept r.origin with | some k => k.active | none => false)
    · rw [hcase hb]
      simpa using ih
    · simp only [if_true]
      rw [List.filterMap_cons, ih]

/-- Equal concepts and equal relations from active concepts: equal recurrence. -/
theorem next_acting {M N : Net α} (hc : N.concept = M.concept) (hr : acting N = acting M) (A : String → α) (c : String) :
    next N A c = next M A c := by
  have : inputs N A c = inputs M A c := by
    rw [inputs_acting, inputs_acting, hr]
    have : along N A c = along M A c := by funext r; unfold along; rw [hc]
    rw [this]
  unfold next
  rw [hc, this]

/-- Iterative engine: two maps with the same settings, concepts and initial activations, whose relations differ only in
those that leave inactive concepts, have the same trajectories and final values. -/
theorem C10_iterative {m n m' n' : FCM α} (hm : Reachable m) (hn : Reachable n) (dm : m.debug = true)
    (dn : n.debug = true) (keys : n.topology.keys = m.topology.keys) (maxIter : n.maxIter = m.maxIter)
    (stop : n.stopAtStabilize = m.stopAtStabilize) (diff : n.stabilityDiff = m.stabilityDiff)
    (extra : n.extraSteps = m.extraSteps) (dec : n.decisionFn = m.decisionFn) (start : at' n.traj 0 = at' m.traj 0)
    (concepts : n.net.concept = m.net.concept) (rels : acting n.net = acting m.net)
    (rm : FCM.runInference true m = (.ok (), m')) (rn : FCM.runInference true n = (.ok (), n')) (c : String) :
    n'.traj c = m'.traj c ∧ n'.getConceptValue c = m'.getConceptValue c := by
  obtain ⟨a, ha⟩ := run_iter hm.inv dm rm
  obtain ⟨b, hb⟩ := run_iter hn.inv dn rn
  exact iter_congr ⟨keys, maxIter, stop, diff, extra, dec, fun c _ => congrFun start c,
    fun A c _ => next_acting concepts rels A c⟩ ha hb c

/-- In particular, a relation from an inactive concept to a concept that is not fuzzy changes nothing. -/
theorem C10_added_partial {m m' n' : FCM α} (hm : Reachable m) (dm : m.debug = true) (hf : m.fitInclination = none)
    {o d : String} {w : α} {no : Node α} (ho : m.topology.get? o = some no) (hi : no.active = false)
    (hd : ∀ nd f, m.topology.get? d = some nd → nd.fn = some f → f.name ≠ "fuzzy")
    (rm : FCM.runInference true m = (.ok (), m'))
    (rn : FCM.runInference true (FCM.addRelation o d w m).2 = (.ok (), n')) (c : String) :
    n'.traj c = m'.traj c ∧ n'.getConceptValue c = m'.getConceptValue c := by
  obtain ⟨n, hn, ha⟩ := addRelation_added hf (o, d, w)
  simp only at hn
  rw [hn] at rn
  have hrn : Reachable n := by
    have := hm.after (.addRelation o d w)
    change Reachable (FCM.addRelation o d w m).2 at this
    rwa [hn] at this
  have hcon : n.net.concept = m.net.concept := by
    funext e
    show (n.topology.get? e).bind _ = (m.topology.get? e).bind _
    cases hg : m.topology.get? e with
    | none =>
      have : n.topology.get? e = none := by
        rw [Dict.get?_eq_none_iff] at hg ⊢
        rw [ha.keys]; exact hg
      rw [this]
    | some x =>
      obtain ⟨x', hx', ex⟩ := ha.node e x hg
      rw [hx']
      show x'.toSpec = x.toSpec
      rw [ex]
      by_cases hed : d = e
      · subst hed
        unfold Node.toSpec
        dsimp only
        split
        · rename_i ex um f he hu hfn
          simp [hd x f hg hfn]
        · rfl
      · have : (([(o, d, w)].filter m.knows).filter fun r => r.2.1 = e) = [] := by
          rw [List.filter_eq_nil_iff]
          intro r hr
          have := List.mem_of_mem_filter hr
          simp only [List.mem_singleton] at this
          subst this
          simpa using hed
        unfold Node.toSpec
        rw [this]
        rfl
  refine C10_iterative hm hrn dm (by rw [ha.eq]; exact dm) ha.keys (by rw [ha.eq]) (by rw [ha.eq]) (by rw [ha.eq])
    (by rw [ha.eq]) (by rw [ha.eq]) ?_ hcon ?_ rm rn c
  · have : n.traj = m.traj := by
      funext e
      unfold FCM.traj
      rw [ha.eq]
    rw [this]
  · unfold acting
    have hk : n.net.rels = m.net.rels ++ (([(o, d, w)].filter m.knows).map fun r => (⟨r.1, r.2.1, r.2.2⟩ : Rel α)) := by
      show n.arcList.map Arc.toSpec = m.arcList.map Arc.toSpec ++ _
      rw [ha.arcs, List.map_append, List.map_map]
      rfl
    rw [hk, hcon, List.filter_append]
    have : (([(o, d, w)].filter m.knows).map fun r => (⟨r.1, r.2.1, r.2.2⟩ : Rel α)).filter (fun r =>
        match m.net.concept r.origin with
        | some k => k.active
        | none => false) = [] := by
      rw [List.filter_eq_nil_iff]
      intro r hr
      obtain ⟨q, hq, rfl⟩ := List.mem_map.1 hr
      have := List.mem_of_mem_filter hq
      simp only [List.mem_singleton] at this
      subst this
      dsimp only
      have hoc : m.net.concept o = no.toSpec := by
        show (m.topology.get? o).bind _ = _
        rw [ho]; rfl
      rw [hoc]
      unfold Node.toSpec
      split
      · rename_i k hk
        split at hk
        · cases hk; simp [hi]
        · cases hk
      · simp
    rw [this, List.append_nil]

/-- The full claim, for both engines and all concepts. -/
def C10_full (α : Type) [Arith α] : Prop :=
  ∀ (m m' n' : FCM α) (o d : String) (w : α) (no : Node α), CleanReachable m → m.fitInclination = none →
    m.topology.get? o = some no → no.active = false → FCM.runInference true m = (.ok (), m') →
    FCM.runInference true (FCM.addRelation o d w m).2 = (.ok (), n') → ∀ c, c ≠ o → n'.traj c = m'.traj c

/-! ### C15: the order of the relations -/

/-- Maps that differ in the order in which relations were added are alike. -/
theorem alike_perm [Exact α] {m : FCM α} (hf : m.fitInclination = none) {rs rs' : List (String × String × α)}
    (hp : rs.Perm rs') : Alike (addAll rs m) (addAll rs' m) := by
  have h1 := addAll_added hf rs
  have h2 := addAll_added hf rs'
  have hcon : (addAll rs' m).net.concept = (addAll rs m).net.concept := by
    funext e
    show ((addAll rs' m).topology.get? e).bind _ = ((addAll rs m).topology.get? e).bind _
    cases hg : m.topology.get? e with
    | none =>
      have e1 : (addAll rs m).topology.get? e = none := by
        rw [Dict.get?_eq_none_iff] at hg ⊢
        rw [h1.keys]; exact hg
      have e2 : (addAll rs' m).topology.get? e = none := by
        rw [Dict.get?_eq_none_iff] at hg ⊢
        rw [h2.keys]; exact hg
      rw [e1, e2]
    | some x =>
      obtain ⟨x1, hx1, ex1⟩ := h1.node e x hg
      obtain ⟨x2, hx2, ex2⟩ := h2.node e x hg
      have hsum : (((rs'.filter m.knows).filter fun r => r.2.1 = e).map (·.2.2)).foldl (· + ·) x.actvSum =
          (((rs.filter m.knows).filter fun r => r.2.1 = e).map (·.2.2)).foldl (· + ·) x.actvSum := by
        rw [foldl_add, foldl_add (a := x.actvSum)]
        congr 1
        exact total_perm ((((hp.filter _).filter _).map _).symm)
      rw [hx1, hx2]
      show x2.toSpec = x1.toSpec
      rw [ex1, ex2, hsum]
      rfl
  have hrel : (addAll rs' m).net.rels.Perm (addAll rs m).net.rels := by
    show ((addAll rs' m).arcList.map _).Perm ((addAll rs m).arcList.map _)
    rw [h1.arcs, h2.arcs]
    exact (List.Perm.append_left _ ((hp.symm.filter _).map _)).map _
  refine ⟨by rw [h1.keys, h2.keys], by rw [h1.eq, h2.eq], by rw [h1.eq, h2.eq], by rw [h1.eq, h2.eq],
    by rw [h1.eq, h2.eq], by rw [h1.eq, h2.eq], ?_, ?_⟩
  · intro c _
    have e1 : (addAll rs m).traj = m.traj := by funext e; unfold FCM.traj; rw [h1.eq]
    have e2 : (addAll rs' m).traj = m.traj := by funext e; unfold FCM.traj; rw [h2.eq]
    rw [e1, e2]
  · intro A c _
    have hin : total (inputs (addAll rs' m).net A c) = total (inputs (addAll rs m).net A c) := by
      apply total_perm
      unfold inputs
      have : along (addAll rs' m).net A c = along (addAll rs m).net A c := by
        funext r; unfold along; rw [hcon]
      rw [this]
      exact hrel.filterMap _
    unfold next
    rw [hcon, hin]

theorem Reachable.addAll {m : FCM α} (h : Reachable m) (rs : List (String × String × α)) :
    Reachable (PyFCM.addAll rs m) := by
  induction rs generalizing m with
  | nil => exact h
  | cons r rs ih =>
    show Reachable (PyFCM.addAll rs (Op.run (.addRelation r.1 r.2.1 r.2.2) m).2)
    exact ih (h.after (.addRelation r.1 r.2.1 r.2.2))

theorem CleanReachable.addAll {m : FCM α} (h : CleanReachable m) (hf : m.fitInclination = none)
    (rs : List (String × String × α)) : CleanReachable (PyFCM.addAll rs m) := by
  induction rs generalizing m with
  | nil => exact h
  | cons r rs ih =>
    obtain ⟨m1, h1, a1⟩ := addRelation_added hf r
    have : PyFCM.addAll (r :: rs) m = PyFCM.addAll rs m1 := by
      show runOps _ (FCM.addRelation r.1 r.2.1 r.2.2 m).2 = _
      rw [h1]
      rfl
    rw [this]
    exact ih (.step (.addRelation r.1 r.2.1 r.2.2) h h1) (by rw [a1.eq]; exact hf)

/-- Exact arithmetic, iterative engine: adding the same relations in another order gives the same trajectories and
final values. -/
theorem C15_iterative [Exact α] {m m1 m2 : FCM α} (hm : Reachable m) (dm : m.debug = true)
    (hf : m.fitInclination = none) {rs rs' : List (String × String × α)} (hp : rs.Perm rs')
    (r1 : FCM.runInference true (addAll rs m) = (.ok (), m1))
    (r2 : FCM.runInference true (addAll rs' m) = (.ok (), m2)) (c : String) :
    m2.traj c = m1.traj c ∧ m2.getConceptValue c = m1.getConceptValue c := by
  obtain ⟨a, ha⟩ := run_iter (hm.addAll rs).inv (by rw [(addAll_added hf rs).eq]; exact dm) r1
  obtain ⟨b, hb⟩ := run_iter (hm.addAll rs').inv (by rw [(addAll_added hf rs').eq]; exact dm) r2
  exact iter_congr (alike_perm hf hp) ha hb c

/-- The full claim for both engines. -/
def C15_full (α : Type) [Arith α] : Prop :=
  ∀ (m m1 m2 : FCM α) (rs rs' : List (String × String × α)), CleanReachable m → m.fitInclination = none → rs.Perm rs' →
    FCM.runInference true (addAll rs m) = (.ok (), m1) → FCM.runInference true (addAll rs' m) = (.ok (), m2) →
    ∀ c, m2.traj c = m1.traj c ∧ m2.getConceptValue c = m1.getConceptValue c

theorem VecFair.perm [Exact α] {m : FCM α} (hf : m.fitInclination = none) {rs rs' : List (String × String × α)}
    (hp : rs.Perm rs') (h : VecFair (addAll rs m)) : VecFair (addAll rs' m) := by
  have h1 := addAll_added hf rs
  have h2 := addAll_added hf rs'
  have hnode : ∀ e x2, (addAll rs' m).topology.get? e = some x2 → ∃ x1, (addAll rs m).topology.get? e = some x1 ∧
      x2.active = x1.active ∧ x2.actvSum = x1.actvSum ∧ x2.fn = x1.fn := by
    intro e x2 hx2
    have he : e ∈ m.topology.keys := by rw [← h2.keys]; exact Dict.mem_keys_of_get? hx2
    obtain ⟨x, hx⟩ := Dict.exists_get?_of_mem he
    obtain ⟨x1, hx1, ex1⟩ := h1.node e x hx
    obtain ⟨x2', hx2', ex2⟩ := h2.node e x hx
    rw [hx2] at hx2'
    cases hx2'
    refine ⟨x1, hx1, ?_, ?_, ?_⟩
    · rw [ex1, ex2]
    · rw [ex1, ex2]
      dsimp only
      rw [foldl_add, foldl_add (a := x.actvSum)]
      congr 1
      exact total_perm ((((hp.filter _).filter _).map _).symm)
    · rw [ex1, ex2]
  refine ⟨?_, ?_, ?_, ?_⟩
  · intro e x2 hx2
    obtain ⟨x1, hx1, a, -, -⟩ := hnode e x2 hx2
    rw [a]; exact h.active e x1 hx1
  · have hs := h.single
    unfold NoParallel at hs ⊢
    rw [h1.arcs] at hs
    rw [h2.arcs]
    refine List.Perm.pairwise (List.Perm.append_left _ ((hp.filter _).map _)) hs ?_
    intro a b hab
    exact fun hh => hab ⟨hh.1.symm, hh.2.symm⟩
  · intro e x2 f hx2 hfn hz
    obtain ⟨x1, hx1, -, b, c⟩ := hnode e x2 hx2
    rw [b]
    exact h.fuzzy e x1 f hx1 (by rw [← c]; exact hfn) hz
  · intro e x2 f hx2 hfn
    obtain ⟨x1, hx1, -, -, c⟩ := hnode e x2 hx2
    exact h.args e x1 f hx1 (by rw [← c]; exact hfn)

/-- Vectorised engine: the same, on the maps where it follows the recurrence (in particular without parallel
relations). -/
theorem C15_vectorised_partial [Exact α] {m m1 m2 : FCM α} (hm : CleanReachable m) (dm : m.debug = false)
    (hf : m.fitInclination = none) {rs rs' : List (String × String × α)} (hp : rs.Perm rs')
    (fair : VecFair (addAll rs m))
    (r1 : FCM.runInference true (addAll rs m) = (.ok (), m1))
    (r2 : FCM.runInference true (addAll rs' m) = (.ok (), m2)) {c : String} (hc : c ∈ m.topology.keys) :
    m2.traj c = m1.traj c ∧ m2.getConceptValue c = m1.getConceptValue c := by
  have a1 := addAll_added hf rs
  have a2 := addAll_added hf rs'
  have c1 := hm.addAll hf rs
  have c2 := hm.addAll hf rs'
  have hne : m.topology ≠ [] := by
    intro e
    rw [e] at hc
    simp [Dict.keys] at hc
  have hne' : ∀ n : FCM α, n.topology.keys = m.topology.keys → n.topology ≠ [] := by
    intro n hk e
    rw [e] at hk
    rw [← hk] at hc
    simp [Dict.keys] at hc
  obtain ⟨x1, y1, k1, v1⟩ := run_vec c1.clean.inv c1.reachable.coherent (by rw [a1.eq]; exact dm) (hne' _ a1.keys) r1
  obtain ⟨x2, y2, k2, v2⟩ := run_vec c2.clean.inv c2.reachable.coherent (by rw [a2.eq]; exact dm) (hne' _ a2.keys) r2
  have htr := vec_congr (alike_perm hf hp) c1.clean c2.clean fair (fair.perm hf hp) v1 v2 c
    (by rw [a1.keys]; exact hc)
  refine ⟨htr, ?_⟩
  obtain ⟨u1, hu1, d1⟩ := C08_final_value c1.reachable r1 (c := c) (by rw [a1.keys]; exact hc)
  obtain ⟨u2, hu2, d2⟩ := C08_final_value c2.reachable r2 (c := c) (by rw [a2.keys]; exact hc)
  have e1 : (addAll rs m).decisionName = m.decisionName := by rw [a1.eq]
  have e2 : (addAll rs' m).decisionName = m.decisionName := by rw [a2.eq]
  have e3 : (addAll rs m).extraSteps = m.extraSteps := by rw [a1.eq]
  have e4 : (addAll rs' m).extraSteps = m.extraSteps := by rw [a2.eq]
  rw [e1, e3] at d1
  rw [e2, e4, htr, d1] at d2
  rw [hu1, hu2, Option.some.inj d2]

end


/-! ### Concrete cases -/

namespace Ex

/-- `FuzzyCognitiveMap(max_it=1, extra_steps=2, decision_function='LAST')` over the reals: two steps, whatever the
values. -/
noncomputable def real0 : FCM ℝ :=
  match FCM.new (maxIt := 1) (extraSteps := 2) (decision := "LAST") (activation := "saturation") with
  | .ok m => m
  | .error _ => default

theorem real0_new : FCM.new (α := ℝ) (maxIt := 1) (extraSteps := 2) (decision := "LAST") (activation := "saturation") =
    .ok real0 := rfl

/-- a and b with relations a -(7)-> b and b -(-3)-> a; a starts at `x`. -/
noncomputable def real1 (x : ℝ) : FCM ℝ :=
  runOps [.addConcept "a" {}, .addConcept "b" { activation := some "gceq" }, .addRelation "a" "b" 7,
    .addRelation "b" "a" (-3), .initConcept "a" x true] real0

theorem real1_reachable (x : ℝ) : Reachable (real1 x) := ⟨_, _, _, _, _, _, _, _, real0, _, real0_new, rfl⟩

theorem real1_keys (x : ℝ) : (real1 x).topology.keys = ["a", "b"] := rfl
theorem real1_run : (FCM.runInference true (real1 (1 / 2))).1 = .ok () := by decide +kernel
theorem real1_run0 : (FCM.runInference true (real1 0)).1 = .ok () := by decide +kernel
theorem real1_start (x : ℝ) : at' (real1 x).traj 0 "a" = x ∧ at' (real1 x).traj 0 "b" = (lit 0 : ℝ) := ⟨rfl, rfl⟩

theorem real1_fn {x : ℝ} {c : String} {n : Node ℝ} (h : (real1 x).topology.get? c = some n) :
    (n.fn = some ⟨.saturation, "saturation", []⟩ ∨ n.fn = some ⟨.gceq, "gceq", []⟩) ∧
      ∀ ex, n.exec = some ex → ex.2 = "KOSKO" := by
  have hk : c ∈ (real1 x).topology.keys := Dict.mem_keys_of_get? h
  rw [real1_keys] at hk
  simp only [List.mem_cons, List.not_mem_nil, or_false] at hk
  rcases hk with rfl | rfl
  · cases h
    exact ⟨.inl rfl, fun ex he => by cases he; rfl⟩
  · cases h
    exact ⟨.inr rfl, fun ex he => by cases he; rfl⟩

end Ex

example {c : String} (hc : c ∈ (Ex.real1 (1 / 2)).topology.keys) :=
  C07_iterative (Ex.real1_reachable (1 / 2)) rfl
    (fun c n f hg hf => by
      rcases (Ex.real1_fn hg).1 with e | e <;> rw [e] at hf <;> cases hf <;> exact trivial)
    (fun c hc => by
      rw [Ex.real1_keys] at hc
      simp only [List.mem_cons, List.not_mem_nil, or_false] at hc
      rcases hc with rfl | rfl
      · rw [(Ex.real1_start _).1]; norm_num
      · rw [(Ex.real1_start _).2]; norm_num [real_lit])
    (Ex.run_eq Ex.real1_run) hc

example {c : String} (hc : c ∈ (Ex.real1 0).topology.keys) :=
  C54_iterative (Ex.real1_reachable 0) rfl
    (fun c n hg => ⟨fun f hf => by
      rcases (Ex.real1_fn hg).1 with e | e <;> rw [e] at hf <;> cases hf
      · exact .inr (.inl rfl)
      · exact .inr (.inr (.inl rfl)), (Ex.real1_fn hg).2⟩)
    (fun c hc => by
      rw [Ex.real1_keys] at hc
      simp only [List.mem_cons, List.not_mem_nil, or_false] at hc
      rcases hc with rfl | rfl
      · rw [(Ex.real1_start _).1]
      · rw [(Ex.real1_start _).2]; simp)
    (Ex.run_eq Ex.real1_run0) hc

/-- The columns of the vectorised engine, in a rational case. -/
example : ∀ y ∈ Ex.cols2, ∀ v ∈ y, -1 ≤ v ∧ v ≤ 1 := by decide +kernel

def Ex.fuzzyArgs : ConceptArgs ℚ where
  type := some TYPE_FUZZY
  useMemory := some false
  activationDict := some [("membership", .list [0, 1]), ("val_list", .list [0, 1])]

/-- An inactive concept a with and without a relation to b. -/
def Ex.opsI (fz : Bool) : List (Op ℚ) :=
  [.addConcept "a" { isActive := some false }, .addConcept "c" {},
   .addConcept "b" (if fz then Ex.fuzzyArgs else {}),
   .addRelation "c" "b" (1/2), .initConcept "a" 1 true, .initConcept "c" 1 true, .assignMaxIter 9]

def Ex.mapI (fz dbg : Bool) : FCM ℚ := runOps (Ex.opsI fz ++ [.assignDebug dbg]) Ex.sat0
theorem Ex.mapI_clean (fz dbg : Bool) : CleanReachable (Ex.mapI fz dbg) :=
  Ex.cleanReachable_of (.new Ex.sat0_new) _ (by cases fz <;> cases dbg <;> decide +kernel)

example (c : String) := C10_added_partial (m := Ex.mapI false true) (o := "a") (d := "b") (w := 1/3)
  (Ex.mapI_clean _ _).reachable (by decide +kernel) (by decide +kernel) (no := ((Ex.mapI false true).topology[0]).2)
  (by rfl) (by decide +kernel)
  (fun nd f h hf => by
    have : (Ex.mapI false true).topology.all (fun p => p.2.fn.all fun f => f.name != "fuzzy") = true := by
      decide +kernel
    have := List.all_eq_true.1 this _ (Dict.get?_mem h)
    simp only [hf, Option.all_some, bne_iff_ne] at this
    exact this)
  (Ex.run_eq (by decide +kernel)) (Ex.run_eq (by decide +kernel)) c

/-- Vectorised engine: the relation of an inactive concept counts. -/
theorem C10_counterexample_vector : ¬ C10_full ℚ := by
  intro h
  have := h (Ex.mapI false false) _ _ "a" "b" (1/3) ((Ex.mapI false false).topology[0]).2 (Ex.mapI_clean _ _)
    (by decide +kernel) (by rfl) (by decide +kernel) (Ex.run_eq (by decide +kernel)) (Ex.run_eq (by decide +kernel))
    "b" (by decide)
  revert this
  decide +kernel

/-- Iterative engine: a fuzzy concept divides by the sum of all incoming weights, those of inactive concepts
included. -/
theorem C10_counterexample_fuzzy : ¬ C10_full ℚ := by
  intro h
  have := h (Ex.mapI true true) _ _ "a" "b" (1/3) ((Ex.mapI true true).topology[0]).2 (Ex.mapI_clean _ _)
    (by decide +kernel) (by rfl) (by decide +kernel) (Ex.run_eq (by decide +kernel)) (Ex.run_eq (by decide +kernel))
    "b" (by decide)
  revert this
  decide +kernel

/-- Concepts only. -/
def Ex.bare (dbg : Bool) : FCM ℚ := runOps [.addConcept "a" {}, .addConcept "b" { useMemory := some false }, .addConcept "c" { useMemory := some false },
  .initConcept "a" 1 true, .initConcept "b" (1/2) true, .assignMaxIter 9, .assignDebug dbg] Ex.sat0
theorem Ex.bare_clean (dbg : Bool) : CleanReachable (Ex.bare dbg) :=
  Ex.cleanReachable_of (.new Ex.sat0_new) _ (by cases dbg <;> decide +kernel)

def Ex.rels1 : List (String × String × ℚ) := [("a", "b", 1/4), ("a", "b", 1/2), ("b", "c", 1/5)]
def Ex.rels2 : List (String × String × ℚ) := [("b", "c", 1/5), ("a", "b", 1/2), ("a", "b", 1/4)]
theorem Ex.rels_perm : Ex.rels1.Perm Ex.rels2 := by decide +kernel

example (c : String) := C15_iterative (Ex.bare_clean true).reachable (by decide +kernel) (by decide +kernel) Ex.rels_perm
  (Ex.run_eq (by decide +kernel)) (Ex.run_eq (by decide +kernel)) c

def Ex.rels3 : List (String × String × ℚ) := [("a", "b", 1/4), ("b", "c", 1/5), ("a", "c", 1/2)]
def Ex.rels4 : List (String × String × ℚ) := [("a", "c", 1/2), ("a", "b", 1/4), ("b", "c", 1/5)]

example {c : String} (hc : c ∈ (Ex.bare false).topology.keys) :=
  C15_vectorised_partial (Ex.bare_clean false) (by decide +kernel) (by decide +kernel)
    (show Ex.rels3.Perm Ex.rels4 by decide +kernel) (Ex.fair_of (by decide +kernel)) (Ex.run_eq (by decide +kernel))
    (Ex.run_eq (by decide +kernel)) hc

/-- Vectorised engine: of two parallel relations the one added last survives. -/
theorem C15_counterexample : ¬ C15_full ℚ := by
  intro h
  have := (h (Ex.bare false) _ _ _ _ (Ex.bare_clean _) (by decide +kernel) Ex.rels_perm
    (Ex.run_eq (by decide +kernel)) (Ex.run_eq (by decide +kernel)) "b").1
  revert this
  decide +kernel

end PyFCM
