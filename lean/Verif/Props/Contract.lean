import Verif.Lemmas.Lipschitz
import Verif.Props.Success
import Verif.Props.Dynamics
import Verif.Props.Inference
import Mathlib.Topology.MetricSpace.Contracting
import Mathlib.Topology.MetricSpace.Pseudo.Pi
import Mathlib.Analysis.SpecificLimits.Basic
/-
C78, C79: maps with small weights or flat functions forget how they were started, stop in time and approach the one
equilibrium they have.
-/
namespace PyFCM
open Arith Spec

/-! ### Specification -/

/-- How much a concept enlarges a difference of its value when it is passed on: twice when rescaled. -/
noncomputable def Spec.gain (k : Concept ℝ) : ℝ := if k.rescale then 2 else 1

/-- The absolute weight of a relation into `c` from an active concept. -/
noncomputable def Spec.pull (N : Net ℝ) (c : String) (r : Rel ℝ) : ℝ :=
  if r.dest = c then
    match N.concept r.origin with
    | some o => if o.active then gain o * |r.weight| else 0
    | none => 0
  else 0

/-- The sum of the absolute weights into `c`, the memory counted as a relation of weight 1. -/
noncomputable def Spec.load (N : Net ℝ) (c : String) (k : Concept ℝ) : ℝ :=
  (N.rels.map (pull N c)).sum + if k.memory then gain k else 0

/-- `L` bounds the slope of the activation function. -/
def Spec.Slope (k : Concept ℝ) (L : ℝ) : Prop :=
  0 ≤ L ∧ ∀ x y u v, k.act x = .ok u → k.act y = .ok v → |u - v| ≤ L * |x - y|

/-- Every concept contracts: slope times load is at most `q`. -/
def Spec.Contracting (N : Net ℝ) (cs : List String) (q : ℝ) : Prop :=
  ∀ c ∈ cs, ∃ k L, N.concept c = some k ∧ k.divisor = none ∧ Slope k L ∧ L * load N c k ≤ q

theorem gain_pos (k : Concept ℝ) : 0 ≤ gain k := by unfold gain; split <;> norm_num

theorem source_diff (k : Concept ℝ) (a b : ℝ) : |source k a - source k b| = gain k * |a - b| := by
  unfold source gain
  split
  · have e : (lit 2 : ℝ) * a - lit 1 - (lit 2 * b - lit 1) = 2 * (a - b) := by simp; ring
    rw [e, abs_mul, abs_of_pos (by norm_num : (0 : ℝ) < 2)]
  · rw [one_mul]

theorem inputs_diff {N : Net ℝ} {A B : String → ℝ} {c : String} {δ : ℝ} {rs : List (Rel ℝ)}
    (h : ∀ r ∈ rs, |A r.origin - B r.origin| ≤ δ) :
    |(rs.filterMap (along N A c)).sum - (rs.filterMap (along N B c)).sum| ≤ (rs.map (pull N c)).sum * δ := by
  induction rs with
  | nil => simp
  | cons r rs ih =>
    have ih := ih fun r hr => h r (.tail _ hr)
    have h1 := h r (.head _)
    simp only [List.filterMap_cons, List.map_cons, List.sum_cons]
    by_cases e : r.dest = c
    · cases hc : N.concept r.origin with
      | none => simpa [along, pull, e, hc] using ih
      | some o =>
        by_cases ha : o.active = true
        · simp only [along, pull, e, hc, ha, if_true, List.sum_cons]
          have h2 : |source o (A r.origin) * r.weight - source o (B r.origin) * r.weight| ≤ gain o * |r.weight| * δ := by
            rw [← sub_mul, abs_mul, source_diff]
            have := mul_le_mul_of_nonneg_left h1 (mul_nonneg (gain_pos o) (abs_nonneg r.weight))
            linarith
          have h3 := abs_add_le (source o (A r.origin) * r.weight - source o (B r.origin) * r.weight)
            ((rs.filterMap (along N A c)).sum - (rs.filterMap (along N B c)).sum)
          have e' : source o (A r.origin) * r.weight + (rs.filterMap (along N A c)).sum -
              (source o (B r.origin) * r.weight + (rs.filterMap (along N B c)).sum) =
              source o (A r.origin) * r.weight - source o (B r.origin) * r.weight +
              ((rs.filterMap (along N A c)).sum - (rs.filterMap (along N B c)).sum) := by ring
          rw [e', add_mul]
          linarith
        · simpa [along, pull, e, hc, ha] using ih
    · simpa [along, pull, e] using ih

/-- One step brings two states closer by the factor `q`. -/
theorem next_diff {N : Net ℝ} {cs : List String} {q : ℝ} (hN : Contracting N cs q) (hcs : ∀ r ∈ N.rels, r.origin ∈ cs)
    {A B : String → ℝ} {δ : ℝ} (h : ∀ d ∈ cs, |A d - B d| ≤ δ) {c : String} (hc : c ∈ cs) {u v : ℝ}
    (hu : next N A c = some (.ok u)) (hv : next N B c = some (.ok v)) : |u - v| ≤ q * δ := by
  obtain ⟨k, L, hk, hd, ⟨hL, hs⟩, hq⟩ := hN c hc
  have hδ : 0 ≤ δ := (abs_nonneg _).trans (h c hc)
  unfold next at hu hv
  rw [hk] at hu hv
  simp only [Option.map_some, Option.some.injEq, hd] at hu hv
  have h1 := hs _ _ _ _ hu hv
  refine h1.trans ?_
  have hi : |total (inputs N A c) - total (inputs N B c)| ≤ (N.rels.map (pull N c)).sum * δ := by
    rw [total_real, total_real]
    exact inputs_diff fun r hr => h _ (hcs r hr)
  have h2 : |(if k.memory = true then total (inputs N A c) + source k (A c) else total (inputs N A c)) -
      (if k.memory = true then total (inputs N B c) + source k (B c) else total (inputs N B c))| ≤ load N c k * δ := by
    unfold load
    split
    · have e : total (inputs N A c) + source k (A c) - (total (inputs N B c) + source k (B c)) =
          (total (inputs N A c) - total (inputs N B c)) + (source k (A c) - source k (B c)) := by ring
      rw [e]
      have h3 := abs_add_le (total (inputs N A c) - total (inputs N B c)) (source k (A c) - source k (B c))
      have h4 := mul_le_mul_of_nonneg_left (h c hc) (gain_pos k)
      rw [← source_diff] at h4
      rw [add_mul]
      linarith
    · rw [add_zero]; exact hi
  calc L * _ ≤ L * (load N c k * δ) := mul_le_mul_of_nonneg_left h2 hL
    _ = L * load N c k * δ := by ring
    _ ≤ q * δ := mul_le_mul_of_nonneg_right hq hδ

/-- Two runs approach each other geometrically. -/
theorem run_diff {N : Net ℝ} {cs : List String} {q : ℝ} (hN : Contracting N cs q) (hcs : ∀ r ∈ N.rels, r.origin ∈ cs)
    {f g : String → List ℝ} {k l : Nat} (hf : IsRun N cs f k) (hg : IsRun N cs g l) {δ : ℝ} {a b : Nat}
    (h0 : ∀ c ∈ cs, |at' f a c - at' g b c| ≤ δ) :
    ∀ t, a + t < k → b + t < l → ∀ c ∈ cs, |at' f (a + t) c - at' g (b + t) c| ≤ q ^ t * δ := by
  intro t
  induction t with
  | zero => intro _ _ c hc; simpa using h0 c hc
  | succ t ih =>
    intro hk hl c hc
    have e1 := (hf c hc).2 (a + t) (by omega)
    have e2 := (hg c hc).2 (b + t) (by omega)
    have := next_diff hN hcs (ih (by omega) (by omega)) hc e1 e2
    rw [pow_succ]
    calc _ ≤ q * (q ^ t * δ) := this
      _ = q ^ t * q * δ := by ring

/-! ### The activation functions -/

/-- The functions with a bounded slope and their bounds: `saturation` 1, `sigmoid` λ/4, `sigmoid_hip` λ/2, `relm` 1/λ. -/
def SlopeArgs (f : FnInfo ℝ) (L : ℝ) : Prop := match f.fn with
  | .saturation => f.args = [] ∧ L = 1
  | .sigmoid => (f.args = [] ∧ L = 1 / 4) ∨ ∃ l, f.args = [("lambda_val", .num l)] ∧ L = |l| / 4
  | .sigmoidHip => (f.args = [] ∧ L = 1) ∨ ∃ l, f.args = [("lambda_val", .num l)] ∧ L = |l| / 2
  | .relm => (f.args = [] ∧ L = 1) ∨ ∃ l, 0 < l ∧ f.args = [("lambda_val", .num l)] ∧ L = 1 / l
  | _ => False

theorem callActv_slope {f : FnInfo ℝ} {L : ℝ} (h : SlopeArgs f L) : 0 ≤ L ∧ ∀ x y u v,
    callActv f.fn x f.args = .ok u → callActv f.fn y f.args = .ok v → |u - v| ≤ L * |x - y| := by
  unfold SlopeArgs at h
  cases hf : f.fn <;> rw [hf] at h <;> unfold callActv <;> simp only at h ⊢
  case saturation =>
    obtain ⟨e, rfl⟩ := h
    rw [e]
    refine ⟨by norm_num, fun x y u v hu hv => ?_⟩
    cases hu; cases hv
    exact saturation_lipschitz x y
  case sigmoid =>
    rcases h with ⟨e, rfl⟩ | ⟨l, e, rfl⟩ <;> rw [e]
    · refine ⟨by norm_num, fun x y u v hu hv => ?_⟩
      have := sigmoid_lipschitz (l := lit 1) hu hv
      simpa using this
    · exact ⟨by positivity, fun x y u v hu hv => sigmoid_lipschitz hu hv⟩
  case sigmoidHip =>
    rcases h with ⟨e, rfl⟩ | ⟨l, e, rfl⟩ <;> rw [e]
    · refine ⟨by norm_num, fun x y u v hu hv => ?_⟩
      have := sigmoidHip_lipschitz (l := lit 2) hu hv
      simpa using this
    · exact ⟨by positivity, fun x y u v hu hv => sigmoidHip_lipschitz hu hv⟩
  case relm =>
    rcases h with ⟨e, rfl⟩ | ⟨l, hl, e, rfl⟩ <;> rw [e]
    · refine ⟨by norm_num, fun x y u v hu hv => ?_⟩
      have := relm_lipschitz (l := lit 1) (by simp) hu hv
      simpa using this
    · exact ⟨by positivity, fun x y u v hu hv => relm_lipschitz hl hu hv⟩

/-- The condition in terms of the map: each concept has a function with slope at most `L` and slope times load is at
most `q`. -/
def Flat (m : FCM ℝ) (q : ℝ) : Prop :=
  ∀ c n, m.topology.get? c = some n → ∃ f ex um L, n.fn = some f ∧ n.exec = some ex ∧ n.useMem = some um ∧ SlopeArgs f L ∧
    L * ((m.arcList.map fun a => if a.dest = c then
        match m.topology.get? a.origin with
        | some o => if o.active then (if o.exec.map (·.2) = some "PAPAGEORGIUS" then 2 else 1) * |a.weight| else 0
        | none => 0
      else 0).sum + if um then (if ex.2 = "PAPAGEORGIUS" then 2 else 1) else 0) ≤ q

theorem toSpec_of {n : Node ℝ} {f : FnInfo ℝ} {ex : ExcFn × String} {um : Bool} (h1 : n.fn = some f) (h2 : n.exec = some ex)
    (h3 : n.useMem = some um) : n.toSpec = some ⟨n.active, ex.2 == "PAPAGEORGIUS", um,
      if f.name = "fuzzy" then some n.actvSum else none, fun x => callActv f.fn x f.args⟩ := by
  unfold Node.toSpec
  rw [h1, h2, h3]

theorem contracting_of {m : FCM ℝ} (hm : Reachable m) {q : ℝ} (h : Flat m q) : Contracting m.net m.topology.keys q := by
  intro c hc
  obtain ⟨n, hn⟩ := Dict.exists_get?_of_mem hc
  obtain ⟨f, ex, um, L, h1, h2, h3, h4, h5⟩ := h c n hn
  have hcon : ∀ d x, m.topology.get? d = some x → m.net.concept d = x.toSpec := by
    intro d x hx
    show (m.topology.get? d).bind _ = _
    rw [hx]
    rfl
  have hk := (hcon c n hn).trans (toSpec_of h1 h2 h3)
  refine ⟨_, L, hk, ?_, callActv_slope h4, ?_⟩
  · dsimp only
    split
    · rename_i hz
      exfalso
      have hok : Activation.getFunctionByName f.name = some f.fn := (hm.inv.nodes c n hn).fn f h1
      rw [hz] at hok
      have hfz : f.fn = .fuzzy := (Option.some.inj hok).symm
      unfold SlopeArgs at h4
      rw [hfz] at h4
      exact h4
    · rfl
  · refine le_trans (le_of_eq ?_) h5
    unfold load gain
    congr 1
    congr 1
    · show ((m.arcList.map Arc.toSpec).map _).sum = _
      rw [List.map_map]
      congr 1
      apply List.map_congr_left
      intro a ha
      show pull m.net c ⟨a.origin, a.dest, a.weight⟩ = _
      unfold pull
      dsimp only
      by_cases hd : a.dest = c
      · rw [if_pos hd, if_pos hd]
        obtain ⟨o, ho⟩ := Dict.exists_get?_of_mem (hm.inv.ends a ha).1
        obtain ⟨fo, exo, umo, Lo, g1, g2, g3, -⟩ := h a.origin o ho
        rw [hcon _ _ ho, toSpec_of g1 g2 g3, ho]
        dsimp only
        rw [g2]
        unfold gain
        simp
      · rw [if_neg hd, if_neg hd]
    · simp

theorem SlopeArgs.proper {f : FnInfo ℝ} {L : ℝ} (h : SlopeArgs f L) : ProperArgs f ∧ TameArgs f := by
  unfold SlopeArgs at h
  unfold ProperArgs TameArgs
  cases hf : f.fn <;> rw [hf] at h <;> simp only at h ⊢
  case saturation => exact ⟨h.1, trivial⟩
  case sigmoid =>
    rcases h with ⟨e, -⟩ | ⟨l, e, -⟩
    · exact ⟨.inl e, trivial⟩
    · exact ⟨.inr ⟨l, e⟩, trivial⟩
  case sigmoidHip =>
    rcases h with ⟨e, -⟩ | ⟨l, e, -⟩
    · exact ⟨.inl e, trivial⟩
    · exact ⟨.inr ⟨l, e⟩, trivial⟩
  case relm =>
    rcases h with ⟨e, -⟩ | ⟨l, hl, e, -⟩
    · exact ⟨.inl e, by rw [e]; intro l hl; cases hl⟩
    · refine ⟨.inr ⟨l, hl.ne', e⟩, ?_⟩
      rw [e]
      intro l' hl'
      simp only [List.mem_singleton, Prod.mk.injEq, true_and, ArgVal.num.injEq] at hl'
      rw [hl']; exact hl

theorem origins {α : Type} [Arith α] {m : FCM α} (hm : Reachable m) : ∀ r ∈ m.net.rels, r.origin ∈ m.topology.keys := by
  intro r hr
  obtain ⟨a, ha, rfl⟩ := List.mem_map.1 hr
  exact (hm.inv.ends a ha).1

/-! ### C78 -/

/-- Two objects with the same map, started differently: after `t` steps their activations differ by at most `q ^ t` times
the greatest initial difference. -/
theorem C78_forgets {m k m' k' : FCM ℝ} (hm : Reachable m) (hk : Reachable k) (dm : m.debug = true)
    (dk : k.debug = true) {q : ℝ} (hq : Flat m q) (hnet : k.net = m.net) (hkeys : k.topology.keys = m.topology.keys) {δ : ℝ}
    (h0 : ∀ c ∈ m.topology.keys, |at' m.traj 0 c - at' k.traj 0 c| ≤ δ) (rm : FCM.runInference true m = (.ok (), m'))
    (rk : FCM.runInference true k = (.ok (), k')) {c : String} (hc : c ∈ m.topology.keys) {t : Nat}
    (h1 : t < (m'.traj c).length) (h2 : t < (k'.traj c).length) :
    |at' m'.traj t c - at' k'.traj t c| ≤ q ^ t * δ := by
  obtain ⟨a, -, ha, ia, -⟩ := C01_recurrence hm dm rm
  obtain ⟨b, -, hb, ib, -⟩ := C01_recurrence hk dk rk
  rw [hnet, hkeys] at hb
  rw [hkeys] at ib
  rw [(ha c hc).1] at h1
  rw [(hb c hc).1] at h2
  have := run_diff (contracting_of hm hq) (origins hm) ha hb (a := 0) (b := 0) (δ := δ)
    (fun d hd => by rw [(ia d hd).2, (ib d hd).2]; exact h0 d hd) t (by omega) (by omega) c hc
  simpa using this

/-- Consecutive activations of a run come closer and closer. -/
theorem steps_shrink {m m' : FCM ℝ} (hm : Reachable m) (dm : m.debug = true) {q : ℝ} (hq : Flat m q)
    (h0 : ∀ c ∈ m.topology.keys, -1 ≤ at' m.traj 0 c ∧ at' m.traj 0 c ≤ 1) (rm : FCM.runInference true m = (.ok (), m'))
    {len : Nat} (hi : IterRun m m' len) {t : Nat} (ht : t + 1 < len) {c : String} (hc : c ∈ m.topology.keys) :
    |at' m'.traj (t + 1) c - at' m'.traj t c| ≤ q ^ t * 2 := by
  have hb : ∀ d ∈ m.topology.keys, ∀ s, s < len → -1 ≤ at' m'.traj s d ∧ at' m'.traj s d ≤ 1 := by
    intro d hd s hs
    have hl := (hi.run d hd).1
    have e : at' m'.traj s d = (m'.traj d)[s]'(by omega) := by
      simp [at', List.getD_eq_getElem?_getD, show s < (m'.traj d).length by omega]
    rw [e]
    refine (C07_iterative hm dm (fun c n f hn hf => ?_) h0 rm hd).1 _ (List.getElem_mem _)
    obtain ⟨f', ex, um, L, g1, -, -, g4, -⟩ := hq c n hn
    rw [hf] at g1
    cases g1
    exact g4.proper.2
  have := run_diff (contracting_of hm hq) (origins hm) hi.run hi.run (a := 1) (b := 0) (δ := 2)
    (fun d hd => by
      have x1 := hb d hd 1 (by omega)
      have x0 := hb d hd 0 (by omega)
      rw [abs_le]
      constructor <;> linarith) t (by omega) (by omega) c hc
  rw [Nat.add_comm 1 t, Nat.zero_add] at this
  exact this

/-- With `stop_at_stabilize` and initial activations in [-1,1] the run is over after `n + 1 + extra_steps` entries, as soon
as `2 * q ^ n` is at most `stability_diff`. -/
theorem C78_stops {m m' : FCM ℝ} (hm : Reachable m) (dm : m.debug = true) {q : ℝ} (hq : Flat m q) (q0 : 0 ≤ q) (q1 : q ≤ 1)
    (h0 : ∀ c ∈ m.topology.keys, -1 ≤ at' m.traj 0 c ∧ at' m.traj 0 c ≤ 1) (hs : m.stopAtStabilize = true)
    {n : Nat} (hn : q ^ n * 2 ≤ m.stabilityDiff) (rm : FCM.runInference true m = (.ok (), m')) {c : String}
    (hc : c ∈ m.topology.keys) : (m'.traj c).length ≤ n + 1 + m.extraSteps := by
  obtain ⟨len, hi⟩ := run_iter hm.inv dm rm
  rw [(hi.run c hc).1]
  by_contra hlt
  have he := hm.inv.extra
  obtain ⟨s, h1, h2, h3⟩ := hi.stops.least (n + 1 + m.extraSteps) (by omega) (by omega)
  refine h3 (.inr ⟨hs, by omega, fun d hd => ?_⟩)
  have := steps_shrink hm dm hq h0 rm hi (t := s - 2) (by omega) hd
  rw [show s - 2 + 1 = s - 1 by omega] at this
  rw [real_lt_f]
  refine le_trans (le_of_eq rfl) (this.trans (le_trans ?_ hn))
  exact mul_le_mul_of_nonneg_right (pow_le_pow_of_le_one q0 q1 (by omega)) (by norm_num)

/-- When `q` is below 1 and `stability_diff` is positive there is such a bound for the run, whatever the start. -/
theorem C78_bound {q ε : ℝ} (q1 : q < 1) (hε : 0 < ε) : ∃ n : Nat, q ^ n * 2 ≤ ε := by
  obtain ⟨n, hn⟩ := exists_pow_lt_of_lt_one (show 0 < ε / 2 by linarith) q1
  exact ⟨n, by linarith⟩

/-! ### C79 -/

/-- A state in which every concept has the value its inputs give it. -/
def Spec.Equilibrium (N : Net ℝ) (cs : List String) (X : String → ℝ) : Prop :=
  ∀ c ∈ cs, next N X c = some (.ok (X c))

/-- The state on `cs`, 0 elsewhere. -/
noncomputable def extend (cs : List String) (x : {c // c ∈ cs} → ℝ) (c : String) : ℝ := if h : c ∈ cs then x ⟨c, h⟩ else 0

/-- A network with total functions that contracts has exactly one equilibrium. -/
theorem exists_equilibrium {N : Net ℝ} {cs : List String} {q : ℝ} (q0 : 0 ≤ q) (q1 : q < 1) (hN : Contracting N cs q)
    (hcs : ∀ r ∈ N.rels, r.origin ∈ cs) (htot : ∀ A, ∀ c ∈ cs, ∃ v, next N A c = some (.ok v)) :
    ∃ X, Equilibrium N cs X := by
  choose F hF using htot
  let S : ({c // c ∈ cs} → ℝ) → {c // c ∈ cs} → ℝ := fun x c => F (extend cs x) c.1 c.2
  have hS : ContractingWith ⟨q, q0⟩ S := by
    refine ⟨by exact_mod_cast q1, LipschitzWith.of_dist_le_mul fun x y => ?_⟩
    refine (dist_pi_le_iff (mul_nonneg q0 dist_nonneg)).2 fun c => ?_
    rw [Real.dist_eq]
    refine next_diff hN hcs (A := extend cs x) (B := extend cs y) (fun d hd => ?_) c.2 (hF _ _ _) (hF _ _ _)
    unfold extend
    rw [dif_pos hd, dif_pos hd, ← Real.dist_eq]
    exact dist_le_pi_dist x y ⟨d, hd⟩
  refine ⟨extend cs (ContractingWith.fixedPoint S hS), fun c hc => ?_⟩
  rw [hF _ c hc]
  have hfix : S (ContractingWith.fixedPoint S hS) = ContractingWith.fixedPoint S hS := hS.fixedPoint_isFixedPt
  have := congrFun hfix ⟨c, hc⟩
  congr 2
  rw [show F (extend cs (ContractingWith.fixedPoint S hS)) c hc = S (ContractingWith.fixedPoint S hS) ⟨c, hc⟩ from rfl, this]
  unfold extend
  rw [dif_pos hc]

theorem exists_greatest (cs : List String) (hne : cs ≠ []) (g : String → ℝ) : ∃ d ∈ cs, ∀ e ∈ cs, g e ≤ g d := by
  obtain ⟨d, hd, h⟩ := Finset.exists_max_image cs.toFinset g (by
    obtain ⟨x, xs, rfl⟩ := List.exists_cons_of_ne_nil hne
    exact ⟨x, by simp⟩)
  exact ⟨d, by simpa using hd, fun e he => h e (by simpa using he)⟩

/-- A state that changes by at most `ε` is within `ε / (1 - q)` of the equilibrium. -/
theorem near_equilibrium {N : Net ℝ} {cs : List String} {q : ℝ} (q1 : q < 1) (hN : Contracting N cs q)
    (hcs : ∀ r ∈ N.rels, r.origin ∈ cs) {X A B : String → ℝ} (hX : Equilibrium N cs X)
    (hB : ∀ c ∈ cs, next N A c = some (.ok (B c))) {ε : ℝ} (h : ∀ c ∈ cs, |B c - A c| ≤ ε) {c : String} (hc : c ∈ cs) :
    |A c - X c| ≤ ε / (1 - q) := by
  obtain ⟨d, hd, hmax⟩ := exists_greatest cs (fun e => by rw [e] at hc; cases hc) fun c => |A c - X c|
  have h1 := next_diff hN hcs hmax hd (hB d hd) (hX d hd)
  have h2 := h d hd
  have h3 : |A d - X d| ≤ |B d - A d| + |B d - X d| := by
    have := abs_sub_le (A d) (B d) (X d)
    rwa [abs_sub_comm (A d) (B d)] at this
  rw [le_div_iff₀ (by linarith)]
  have h4 := hmax c hc
  have h5 : (0 : ℝ) < 1 - q := by linarith
  calc |A c - X c| * (1 - q) ≤ |A d - X d| * (1 - q) := mul_le_mul_of_nonneg_right h4 h5.le
    _ ≤ ε := by linarith

theorem next_total {m : FCM ℝ} (hm : Reachable m) {q : ℝ} (hq : Flat m q) (A : String → ℝ) :
    ∀ c ∈ m.topology.keys, ∃ v, next m.net A c = some (.ok v) := by
  intro c hc
  obtain ⟨k, L, hk, hd, -⟩ := contracting_of hm hq c hc
  unfold next
  rw [hk]
  simp only [Option.map_some, hd]
  obtain ⟨n, hn⟩ := Dict.exists_get?_of_mem hc
  obtain ⟨f, ex, um, L', h1, h2, h3, h4, -⟩ := hq c n hn
  have : m.net.concept c = n.toSpec := by
    show (m.topology.get? c).bind _ = _
    rw [hn]
    rfl
  rw [hk, toSpec_of h1 h2 h3] at this
  cases this
  obtain ⟨v, hv⟩ := callActv_total h4.proper.1 (if um = true then total (inputs m.net A c) + source _ (A c) else total (inputs m.net A c))
  exact ⟨v, congrArg some hv⟩

/-- Such a map has exactly one equilibrium, and every run of every object with this map approaches it geometrically. -/
theorem C79_equilibrium {m : FCM ℝ} (hm : Reachable m) {q : ℝ} (hq : Flat m q) (q0 : 0 ≤ q) (q1 : q < 1) :
    ∃ X, Equilibrium m.net m.topology.keys X ∧
      (∀ Y, Equilibrium m.net m.topology.keys Y → ∀ c ∈ m.topology.keys, Y c = X c) ∧
      ∀ k k' : FCM ℝ, Reachable k → k.debug = true → k.net = m.net → k.topology.keys = m.topology.keys →
        FCM.runInference true k = (.ok (), k') → ∀ δ, (∀ c ∈ m.topology.keys, |at' k.traj 0 c - X c| ≤ δ) →
        ∀ c ∈ m.topology.keys, ∀ t, t < (k'.traj c).length → |at' k'.traj t c - X c| ≤ q ^ t * δ := by
  have hC := contracting_of hm hq
  have hO := origins hm
  obtain ⟨X, hX⟩ := exists_equilibrium q0 q1 hC hO (next_total hm hq)
  refine ⟨X, hX, fun Y hY c hc => ?_, fun k k' hk dk hnet hkeys rk δ hδ c hc t ht => ?_⟩
  · have := near_equilibrium q1 hC hO hX (A := Y) (B := Y) hY (ε := 0) (fun c _ => by simp) hc
    rw [zero_div] at this
    have := abs_nonpos_iff.1 this
    linarith
  · obtain ⟨b, -, hb, ib, -⟩ := C01_recurrence hk dk rk
    rw [hnet, hkeys] at hb
    rw [hkeys] at ib
    rw [(hb c hc).1] at ht
    induction t generalizing c with
    | zero => rw [(ib c hc).2]; simpa using hδ c hc
    | succ t ih =>
      have := next_diff hC hO (fun d hd => ih d hd (by omega)) hc ((hb c hc).2 t ht) (hX c hc)
      rw [pow_succ]
      calc _ ≤ q * (q ^ t * δ) := this
        _ = q ^ t * q * δ := by ring

/-- LAST: with `stop_at_stabilize`, initial activations in [-1,1], at least one extra step and enough iterations allowed, the
final value is within `stability_diff / (1 - q)` of the equilibrium. -/
theorem C79_final {m m' : FCM ℝ} (hm : Reachable m) (dm : m.debug = true) {q : ℝ} (hq : Flat m q) (q0 : 0 ≤ q) (q1 : q < 1)
    (h0 : ∀ c ∈ m.topology.keys, -1 ≤ at' m.traj 0 c ∧ at' m.traj 0 c ≤ 1) (hs : m.stopAtStabilize = true)
    (hdec : m.decisionName = "LAST") (hex : 2 ≤ m.extraSteps) {n : Nat} (hn : q ^ n * 2 ≤ m.stabilityDiff)
    (hmax : (n : Int) + 2 < m.maxIter) (rm : FCM.runInference true m = (.ok (), m')) {X : String → ℝ}
    (hX : Equilibrium m.net m.topology.keys X) {c : String} (hc : c ∈ m.topology.keys) :
    ∃ v, m'.getConceptValue c = some v ∧ |v - X c| ≤ m.stabilityDiff / (1 - q) := by
  have hC := contracting_of hm hq
  have hO := origins hm
  obtain ⟨v, hv, hd⟩ := C08_final_value hm rm hc
  refine ⟨v, hv, ?_⟩
  have hlen := C78_stops hm dm hq q0 q1.le h0 hs hn rm hc
  obtain ⟨len, hi⟩ := run_iter hm.inv dm rm
  have hl := (hi.run c hc).1
  rw [hl] at hlen
  have habove := hi.stops.above
  -- two consecutive entries that are close
  have hclose : ∀ s, len - (m.extraSteps - 1) ≤ s → s < len → (s : Int) < m.maxIter →
      1 < s ∧ ∀ d ∈ m.topology.keys, |at' m'.traj (s - 1) d - at' m'.traj (s - 2) d| ≤ m.stabilityDiff := by
    intro s h1 h2 h3
    rcases hi.stops.window s h1 h2 with h | ⟨-, h, hcalm⟩
    · omega
    · exact ⟨h, fun d hd => (real_lt_f _ _).1 (hcalm d hd)⟩
  have hval : ∀ j, j < len → (m'.traj c)[j]? = some v → v = at' m'.traj j c := by
    intro j hj hjv
    unfold at'
    rw [List.getD_eq_getElem?_getD, hjv]
    rfl
  rw [hdec] at hd
  unfold decideBy at hd
  rw [if_pos rfl] at hd
  unfold decideLast at hd
  rw [hl] at hd
  by_cases hlt : m.extraSteps + 1 < len
  · rw [if_pos hlt] at hd
    rw [hval _ (by omega) hd]
    obtain ⟨h1, h2⟩ := hclose (len - m.extraSteps + 1) (by omega) (by omega) (by omega)
    have e1 : len - m.extraSteps + 1 - 1 = len - m.extraSteps - 1 + 1 := by omega
    have e2 : len - m.extraSteps + 1 - 2 = len - m.extraSteps - 1 := by omega
    rw [e1, e2] at h2
    exact near_equilibrium q1 hC hO hX (fun d hd => (hi.run d hd).2 _ (by omega)) h2 hc
  · rw [if_neg hlt] at hd
    rw [hval _ (by omega) hd]
    obtain ⟨h1, h2⟩ := hclose (len - (m.extraSteps - 1)) (by omega) (by omega) (by omega)
    have e1 : len - (m.extraSteps - 1) - 1 = 1 := by omega
    have e2 : len - (m.extraSteps - 1) - 2 = 0 := by omega
    rw [e1, e2] at h2
    have hε : 0 ≤ m.stabilityDiff := (abs_nonneg _).trans (h2 c hc)
    have hz : ∀ j, j < len → ∀ d ∈ m.topology.keys, |at' m'.traj j d - X d| ≤ m.stabilityDiff / (1 - q) := by
      intro j
      induction j with
      | zero => exact fun _ d hd => near_equilibrium q1 hC hO hX (fun d hd => (hi.run d hd).2 0 (by omega)) h2 hd
      | succ j ih =>
        intro hj d hd
        have := next_diff hC hO (ih (by omega)) hd ((hi.run d hd).2 j hj) (hX d hd)
        refine this.trans ?_
        have h5 : 0 ≤ m.stabilityDiff / (1 - q) := div_nonneg hε (by linarith)
        nlinarith
    exact hz _ (by omega) c hc

/-! ### Concrete case -/

namespace Ex

/-- `FuzzyCognitiveMap(decision_function='LAST', activation_function='sigmoid')`, otherwise with the default settings. -/
noncomputable def flat0 : FCM ℝ :=
  match FCM.new (decision := "LAST") (activation := "sigmoid") with
  | .ok m => m
  | .error _ => default

theorem flat0_new : FCM.new (α := ℝ) (decision := "LAST") (activation := "sigmoid") = .ok flat0 := rfl

noncomputable def flatOps (x : ℝ) : List (Op ℝ) :=
  [.addConcept "a" {}, .addConcept "b" {}, .addRelation "a" "b" (1/2), .addRelation "b" "a" (-1/2), .initConcept "a" x true]

/-- a and b (sigmoid, with memory) with relations a -(1/2)-> b and b -(-1/2)-> a; a starts at `x`. -/
noncomputable def flat (x : ℝ) : FCM ℝ := runOps (flatOps x) flat0

theorem flat_clean (x : ℝ) : CleanReachable (flat x) := cleanReachable_of (.new flat0_new) (flatOps x) rfl
theorem flat_keys (x : ℝ) : (flat x).topology.keys = ["a", "b"] := rfl
theorem flat_arcs (x : ℝ) : (flat x).arcList = [⟨"b", 1/2, "a"⟩, ⟨"a", -1/2, "b"⟩] := rfl

theorem flat_node (x : ℝ) {c : String} (h : c = "a" ∨ c = "b") : ∃ o, (flat x).topology.get? c = some o ∧ o.active = true ∧
    o.fn = some ⟨.sigmoid, "sigmoid", []⟩ ∧ o.exec = some (.kosko, "KOSKO") ∧ o.useMem = some true := by
  rcases h with rfl | rfl
  · exact ⟨_, rfl, rfl, rfl, rfl, rfl⟩
  · exact ⟨_, rfl, rfl, rfl, rfl, rfl⟩

/-- The slope is 1/4 and the load of both concepts 1/2 + 1, so that q is 3/8. -/
theorem flat_flat (x : ℝ) : Flat (flat x) (3/8) := by
  intro c n hn
  have hk : c ∈ (flat x).topology.keys := Dict.mem_keys_of_get? hn
  rw [flat_keys] at hk
  obtain ⟨oa, ga, aa, fa, xa, ua⟩ := flat_node x (.inl rfl)
  obtain ⟨ob, gb, ab, fb, xb, ub⟩ := flat_node x (.inr rfl)
  have hab : ("a" : String) ≠ "b" := by decide
  have hba : ("b" : String) ≠ "a" := by decide
  have hkp : ("KOSKO" : String) ≠ "PAPAGEORGIUS" := by decide
  simp only [List.mem_cons, List.not_mem_nil, or_false] at hk
  rcases hk with rfl | rfl
  · rw [ga] at hn
    obtain rfl := Option.some.inj hn
    refine ⟨_, _, _, 1/4, fa, xa, ua, .inl ⟨rfl, rfl⟩, ?_⟩
    rw [flat_arcs]
    simp only [List.map_cons, List.map_nil, if_neg hba, if_true, gb, ab, xb, Option.map_some, Option.some.injEq, if_neg hkp,
      List.sum_cons, List.sum_nil]
    norm_num [abs_of_nonneg, abs_of_neg]
  · rw [gb] at hn
    obtain rfl := Option.some.inj hn
    refine ⟨_, _, _, 1/4, fb, xb, ub, .inl ⟨rfl, rfl⟩, ?_⟩
    rw [flat_arcs]
    simp only [List.map_cons, List.map_nil, if_neg hab, if_true, ga, aa, xa, Option.map_some, Option.some.injEq, if_neg hkp,
      List.sum_cons, List.sum_nil]
    norm_num [abs_of_nonneg, abs_of_neg]

theorem flat_start {x : ℝ} (h1 : -1 ≤ x) (h2 : x ≤ 1) :
    ∀ c ∈ (flat x).topology.keys, -1 ≤ at' (flat x).traj 0 c ∧ at' (flat x).traj 0 c ≤ 1 := by
  intro c hc
  rw [flat_keys] at hc
  simp only [List.mem_cons, List.not_mem_nil, or_false] at hc
  rcases hc with rfl | rfl
  · exact ⟨h1, h2⟩
  · show -1 ≤ (lit 0 : ℝ) ∧ (lit 0 : ℝ) ≤ 1
    simp

theorem flat_run (x : ℝ) : ∃ m', FCM.runInference true (flat x) = (.ok (), m') :=
  C75_succeeds (flat_clean x) rfl
    (fun c n f hg hf => by
      obtain ⟨f', ex, um, L, g1, -, -, g4, -⟩ := flat_flat x c n hg
      rw [hf] at g1
      cases g1
      refine ⟨g4.proper.1, fun hz => ?_⟩
      exfalso
      have hok : Activation.getFunctionByName f.name = some f.fn := ((flat_clean x).reachable.inv.nodes c n hg).fn f hf
      rw [hz] at hok
      have hfz : f.fn = .fuzzy := (Option.some.inj hok).symm
      unfold SlopeArgs at g4
      rw [hfz] at g4
      exact g4)
    (show "LAST" ≠ "EXITED" by decide)

theorem flat_debug (x : ℝ) : (flat x).debug = true := rfl
theorem flat_a (x : ℝ) : at' (flat x).traj 0 "a" = x := rfl
theorem flat_b (x : ℝ) : at' (flat x).traj 0 "b" = lit 0 := rfl

/-- The net does not depend on the initial value. -/
theorem flat_net (x y : ℝ) : (flat x).net = (flat y).net := by
  unfold FCM.net
  congr 1
  funext c
  by_cases e1 : c = "a"
  · subst e1; rfl
  · by_cases e2 : c = "b"
    · subst e2; rfl
    · rw [(Dict.get?_eq_none_iff _ _).2 (by rw [flat_keys]; simp [e1, e2]),
        (Dict.get?_eq_none_iff _ _).2 (by rw [flat_keys]; simp [e1, e2])]

end Ex

/-- Started at 1 and at -1, the two runs differ by at most (3/8)^t * 2 after t steps. -/
example : ∃ m' k', FCM.runInference true (Ex.flat 1) = (.ok (), m') ∧ FCM.runInference true (Ex.flat (-1)) = (.ok (), k') ∧
    ∀ t, t < (m'.traj "b").length → t < (k'.traj "b").length → |at' m'.traj t "b" - at' k'.traj t "b"| ≤ (3/8) ^ t * 2 := by
  obtain ⟨m', hm⟩ := Ex.flat_run 1
  obtain ⟨k', hk⟩ := Ex.flat_run (-1)
  refine ⟨m', k', hm, hk, fun t h1 h2 => C78_forgets (Ex.flat_clean 1).reachable (Ex.flat_clean (-1)).reachable (Ex.flat_debug 1)
    (Ex.flat_debug (-1)) (Ex.flat_flat 1) (Ex.flat_net (-1) 1) ((Ex.flat_keys 1).trans (Ex.flat_keys (-1)).symm) (fun c hc => ?_)
    hm hk (by rw [Ex.flat_keys]; simp) h1 h2⟩
  rw [Ex.flat_keys] at hc
  simp only [List.mem_cons, List.not_mem_nil, or_false] at hc
  rcases hc with rfl | rfl
  · rw [Ex.flat_a, Ex.flat_a]
    norm_num
  · rw [Ex.flat_b, Ex.flat_b]
    norm_num

/-- Every run from a start in [-1,1] has at most 14 entries, and its final value is within 0.0016 of the equilibrium. -/
example {x : ℝ} (h1 : -1 ≤ x) (h2 : x ≤ 1) : ∃ m' X v, FCM.runInference true (Ex.flat x) = (.ok (), m') ∧
    (m'.traj "a").length ≤ 14 ∧ Equilibrium (Ex.flat x).net (Ex.flat x).topology.keys X ∧
    m'.getConceptValue "a" = some v ∧ |v - X "a"| ≤ 16/10000 := by
  obtain ⟨m', hm⟩ := Ex.flat_run x
  have hr := (Ex.flat_clean x).reachable
  have hd : (Ex.flat x).stabilityDiff = 1/1000 := by
    show (dec 1 1000 : ℝ) = _
    norm_num [dec]
  have hn : (3/8 : ℝ) ^ 8 * 2 ≤ (Ex.flat x).stabilityDiff := by rw [hd]; norm_num
  obtain ⟨X, hX, -⟩ := C79_equilibrium hr (Ex.flat_flat x) (by norm_num) (by norm_num)
  obtain ⟨v, hv, hb⟩ := C79_final hr rfl (Ex.flat_flat x) (by norm_num) (by norm_num) (Ex.flat_start h1 h2) rfl rfl
    (by show 2 ≤ 5; norm_num) hn (by show (8 : Int) + 2 < 200; norm_num) hm hX (c := "a") (by rw [Ex.flat_keys]; simp)
  refine ⟨m', X, v, hm, ?_, hX, hv, hb.trans (by rw [hd]; norm_num)⟩
  exact C78_stops hr rfl (Ex.flat_flat x) (by norm_num) (by norm_num) (Ex.flat_start h1 h2) rfl hn hm (c := "a")
    (by rw [Ex.flat_keys]; simp)

end PyFCM
