import Verif.Props.VecNet
import Verif.Props.Monotone
import Verif.Props.Contract
/-
C109: with the vectorised engine too a change spreads only along relations, keeps its direction in excitatory maps and is
forgotten by contracting maps.
-/
namespace PyFCM
open Arith Spec

/-! ### The map as the vectorised engine sees it -/

section Net
variable {α : Type} [Arith α]

omit [Arith α] in
theorem latest_sublist : ∀ rs : List (Rel α), (latest rs).Sublist rs
  | [] => .slnil
  | r :: rs => by
    unfold latest
    split
    · exact (latest_sublist rs).cons _
    · exact (latest_sublist rs).cons_cons _

omit [Arith α] in
theorem latest_into (c : String) : ∀ rs : List (Rel α),
    (latest rs).filter (fun r => r.dest == c) = latest (rs.filter fun r => r.dest == c)
  | [] => rfl
  | r :: rs => by
    by_cases hc : r.dest = c
    · rw [List.filter_cons_of_pos (by simpa using hc)]
      unfold latest
      have e : (∃ s ∈ rs, s.origin = r.origin ∧ s.dest = r.dest) ↔
          ∃ s ∈ rs.filter (fun r => r.dest == c), s.origin = r.origin ∧ s.dest = r.dest := by
        constructor
        · rintro ⟨s, h1, h2, h3⟩
          exact ⟨s, List.mem_filter.2 ⟨h1, by simpa using h3.trans hc⟩, h2, h3⟩
        · rintro ⟨s, h1, h2⟩
          exact ⟨s, (List.mem_filter.1 h1).1, h2⟩
      by_cases hs : ∃ s ∈ rs, s.origin = r.origin ∧ s.dest = r.dest
      · rw [if_pos hs, if_pos (e.1 hs), latest_into c rs]
      · rw [if_neg hs, if_neg (fun h => hs (e.2 h)), List.filter_cons_of_pos (by simpa using hc), latest_into c rs]
    · rw [List.filter_cons_of_neg (by simpa using hc), ← latest_into c rs]
      conv_lhs => unfold latest
      split
      · rfl
      · rw [List.filter_cons_of_neg (by simpa using hc)]

theorem upstream_vector {N : Net α} {S : String → Prop} (h : Upstream N S) : Upstream N.vector S :=
  fun r hr => h r ((latest_sublist _).subset hr)

theorem agree_vector {N M : Net α} {S : String → Prop} (h : AgreeOn S N M) : AgreeOn S N.vector M.vector := by
  refine ⟨fun c hc => ?_, fun c hc => ?_⟩
  · show (N.concept c).map _ = (M.concept c).map _
    rw [h.concepts c hc]
  · show (latest _).filter _ = (latest _).filter _
    rw [latest_into, latest_into, h.rels c hc]

theorem origins_vector {m : FCM α} (hm : Reachable m) : ∀ r ∈ m.net.vector.rels, r.origin ∈ m.topology.keys :=
  fun r hr => origins hm r ((latest_sublist _).subset hr)

end Net

theorem excitatory_vector {N : Net ℝ} (h : Excitatory N) : Excitatory N.vector := by
  refine ⟨fun r hr => h.weights r ((latest_sublist _).subset hr), fun c k hk => ?_⟩
  obtain ⟨k0, h1, rfl⟩ := Option.map_eq_some_iff.1 hk
  refine ⟨fun d hd => (h.rising c k0 h1).1 d ?_, (h.rising c k0 h1).2⟩
  exact (Option.filter_eq_some_iff.1 hd).1

/-! ### Runs -/

/-- A map for the vectorised engine: no earlier call raised, the functions have proper parameters and the map starts in
[-1,1]. -/
structure Vectorised (m : FCM ℝ) : Prop where
  clean : CleanReachable m
  off : m.debug = false
  nonempty : m.topology ≠ []
  args : ∀ c n f, m.topology.get? c = some n → n.fn = some f → ProperArgs f ∧ TameArgs f
  start : ∀ c ∈ m.topology.keys, -1 ≤ at' m.traj 0 c ∧ at' m.traj 0 c ≤ 1

/-- What the vectorised engine records is a run of the recurrence of the map as that engine sees it. -/
theorem vec_run {m m' : FCM ℝ} (hm : Vectorised m) (h : FCM.runInference true m = (.ok (), m')) :
    ∃ l, IsRun m.net.vector m.topology.keys m'.traj l ∧ ∀ c ∈ m.topology.keys, 0 < l → at' m'.traj 0 c = at' m.traj 0 c := by
  obtain ⟨x, e0, hx, hrange⟩ := vec_orbit hm.clean.clean hm.args hm.start
  obtain ⟨l, -, -, hrec⟩ := C105_records hm.clean hm.off hm.nonempty (fun c n f hn hf => (hm.args c n f hn hf).1.kw) e0 hx
    (not_two hrange) h
  generalize (if (l : Int) < m.maxIter then l else l - 1) = k at hrec
  have hat : ∀ c ∈ m.topology.keys, ∀ t, t < k → at' m'.traj t c = x t c := by
    intro c hc t ht
    unfold at'
    rw [hrec c hc, List.getD_eq_getElem?_getD, List.getElem?_map, List.getElem?_range ht]
    rfl
  refine ⟨k, fun c hc => ⟨by rw [hrec c hc]; simp, fun t ht => ?_⟩, fun c hc h0 => (hat c hc 0 h0).trans (e0 c hc)⟩
  rw [hat c hc _ ht, ← hx t c hc]
  exact next_congr (hat c hc t (by omega)) fun r hr => hat _ (origins_vector hm.clean.reachable r hr) t (by omega)

/-! ### Only downstream -/

/-- C109: two maps that agree on a set `S` of concepts closed under predecessors, also in the initial activations, record
the same values for the concepts of `S` at every step both of them record. -/
theorem C109_upstream {m k m' k' : FCM ℝ} (hm : Vectorised m) (hk : Vectorised k)
    (rm : FCM.runInference true m = (.ok (), m')) (rk : FCM.runInference true k = (.ok (), k'))
    {S : String → Prop} (hS : Upstream m.net S) (h : AgreeOn S m.net k.net)
    (hcs : ∀ c, S c → c ∈ m.topology.keys ∧ c ∈ k.topology.keys) (h0 : ∀ c, S c → at' m.traj 0 c = at' k.traj 0 c)
    {c : String} (hc : S c) {t : Nat} (h1 : t < (m'.traj c).length) (h2 : t < (k'.traj c).length) :
    at' m'.traj t c = at' k'.traj t c := by
  obtain ⟨a, ha, ia⟩ := vec_run hm rm
  obtain ⟨b, hb, ib⟩ := vec_run hk rk
  rw [(ha c (hcs c hc).1).1] at h1
  rw [(hb c (hcs c hc).2).1] at h2
  refine run_agree (upstream_vector hS) (agree_vector h) ha hb hcs (fun d hd => ?_) t h1 h2 c hc
  rw [ia d (hcs d hd).1 (by omega), ib d (hcs d hd).2 (by omega), h0 d hd]

/-- C109: `init_concept(b, v)` affects only concepts influenced by `b`. -/
theorem C109_init {m k m' k' : FCM ℝ} (hm : Vectorised m) (hk : Vectorised k) {b : String} {v : ℝ}
    (hi : FCM.initConcept b v true m = (.ok (), k)) (rm : FCM.runInference true m = (.ok (), m'))
    (rk : FCM.runInference true k = (.ok (), k')) {c : String} (hc : c ∈ m.topology.keys)
    (hn : ¬ Influences m.net b c) {t : Nat} (h1 : t < (m'.traj c).length) (h2 : t < (k'.traj c).length) :
    at' m'.traj t c = at' k'.traj t c := by
  obtain ⟨e1, e2, e3, -⟩ := initConcept_effect hi
  refine C109_upstream hm hk rm rk (S := fun c => c ∈ m.topology.keys ∧ ¬ Influences m.net b c)
    (fun r hr hrd => ⟨origins hm.clean.reachable r hr, upstream_of m.net b r hr hrd.2⟩) ?_
    (fun d hd => ⟨hd.1, by rw [e2]; exact hd.1⟩) (fun d hd => ?_) ⟨hc, hn⟩ h1 h2
  · rw [e1]; exact ⟨fun _ _ => rfl, fun _ _ => rfl⟩
  · unfold at'
    rw [e3 d (fun e => hd.2 (e ▸ .self))]

/-- C109: `add_relation(o, d, w)` affects only concepts influenced by `d`. -/
theorem C109_relation {m k m' k' : FCM ℝ} (hm : Vectorised m) (hk : Vectorised k) {o d : String} {w : ℝ}
    (hi : FCM.addRelation o d w m = (.ok (), k)) (rm : FCM.runInference true m = (.ok (), m'))
    (rk : FCM.runInference true k = (.ok (), k')) {c : String} (hc : c ∈ m.topology.keys)
    (hn : ¬ Influences m.net d c) {t : Nat} (h1 : t < (m'.traj c).length) (h2 : t < (k'.traj c).length) :
    at' m'.traj t c = at' k'.traj t c := by
  obtain ⟨e0, e1, e2, e3, -⟩ := addRelation_effect hi
  have hne : ∀ c, ¬ Influences m.net d c → c ≠ d := fun c h e => h (e ▸ .self)
  exact C109_upstream hm hk rm rk (S := fun c => c ∈ m.topology.keys ∧ ¬ Influences m.net d c)
    (fun r hr hrd => ⟨origins hm.clean.reachable r hr, upstream_of m.net d r hr hrd.2⟩)
    ⟨fun c hc => (e0 c (hne c hc.2)).symm, fun c hc => (e1 c (hne c hc.2)).symm⟩
    (fun c hd => ⟨hd.1, by rw [e2]; exact hd.1⟩) (fun c _ => by rw [e3]) ⟨hc, hn⟩ h1 h2

/-! ### Excitatory maps -/

/-- C109: two objects with the same excitatory map, the first starting below the second: at every step both of them record,
every activation of the first is at most that of the second. -/
theorem C109_order {m k m' k' : FCM ℝ} (hm : Vectorised m) (hk : Vectorised k) (hw : ∀ a ∈ m.arcList, 0 ≤ a.weight)
    (hf : ∀ c n f, m.topology.get? c = some n → n.fn = some f → RisingArgs f) (hnet : k.net = m.net)
    (hkeys : k.topology.keys = m.topology.keys) (h0 : ∀ c ∈ m.topology.keys, at' m.traj 0 c ≤ at' k.traj 0 c)
    (rm : FCM.runInference true m = (.ok (), m')) (rk : FCM.runInference true k = (.ok (), k')) {c : String}
    (hc : c ∈ m.topology.keys) {t : Nat} (h1 : t < (m'.traj c).length) (h2 : t < (k'.traj c).length) :
    at' m'.traj t c ≤ at' k'.traj t c := by
  obtain ⟨a, ha, ia⟩ := vec_run hm rm
  obtain ⟨b, hb, ib⟩ := vec_run hk rk
  rw [hnet, hkeys] at hb
  rw [hkeys] at ib
  rw [(ha c hc).1] at h1
  rw [(hb c hc).1] at h2
  refine run_mono (excitatory_vector (excitatory_of hm.clean.reachable hw hf)) (origins_vector hm.clean.reachable) ha hb
    (fun d hd => ?_) t h1 h2 c hc
  rw [ia d hd (by omega), ib d hd (by omega)]
  exact h0 d hd

/-! ### Contracting maps -/

/-- The condition `Flat` of C78 with inactive concepts counted as well, since they influence their neighbours here. -/
def VecFlat (m : FCM ℝ) (q : ℝ) : Prop :=
  ∀ c n, m.topology.get? c = some n → ∃ f ex um L, n.fn = some f ∧ n.exec = some ex ∧ n.useMem = some um ∧ SlopeArgs f L ∧
    L * ((m.arcList.map fun a => if a.dest = c then
        match m.topology.get? a.origin with
        | some o => (if o.exec.map (·.2) = some "PAPAGEORGIUS" then 2 else 1) * |a.weight|
        | none => 0
      else 0).sum + if um then (if ex.2 = "PAPAGEORGIUS" then 2 else 1) else 0) ≤ q

theorem sublist_sum {as bs : List (Rel ℝ)} (h : as.Sublist bs) {g : Rel ℝ → ℝ} (hg : ∀ r, 0 ≤ g r) :
    (as.map g).sum ≤ (bs.map g).sum := by
  induction h with
  | slnil => simp
  | cons r _ ih => simp only [List.map_cons, List.sum_cons]; have := hg r; linarith
  | cons_cons r _ ih => simp only [List.map_cons, List.sum_cons]; linarith

theorem pull_pos (N : Net ℝ) (c : String) (r : Rel ℝ) : 0 ≤ pull N c r := by
  unfold pull
  split
  · split
    · split
      · exact mul_nonneg (gain_pos _) (abs_nonneg _)
      · exact le_refl _
    · exact le_refl _
  · exact le_refl _

theorem contracting_vector {m : FCM ℝ} (hm : Reachable m) {q : ℝ} (h : VecFlat m q) :
    Contracting m.net.vector m.topology.keys q := by
  intro c hc
  obtain ⟨n, hn⟩ := Dict.exists_get?_of_mem hc
  obtain ⟨f, ex, um, L, h1, h2, h3, h4, h5⟩ := h c n hn
  have hcon : ∀ d x, m.topology.get? d = some x → m.net.vector.concept d = x.toSpec.map Concept.vector := by
    intro d x hx
    show ((m.topology.get? d).bind _).map _ = _
    rw [hx]
    rfl
  have hk := hcon c n hn
  rw [toSpec_of h1 h2 h3] at hk
  have hnf : f.name ≠ "fuzzy" := by
    intro hz
    have hok : Activation.getFunctionByName f.name = some f.fn := (hm.inv.nodes c n hn).fn f h1
    rw [hz] at hok
    have hfz : f.fn = .fuzzy := (Option.some.inj hok).symm
    unfold SlopeArgs at h4
    rw [hfz] at h4
    exact h4
  rw [if_neg hnf] at hk
  refine ⟨_, L, hk, rfl, callActv_slope h4, le_trans (mul_le_mul_of_nonneg_left ?_ (callActv_slope h4).1) h5⟩
  unfold load
  refine add_le_add ((sublist_sum (latest_sublist _) (pull_pos _ c)).trans (le_of_eq ?_)) (le_of_eq ?_)
  · show ((m.arcList.map Arc.toSpec).map _).sum = _
    rw [List.map_map]
    congr 1
    apply List.map_congr_left
    intro a ha
    show pull m.net.vector c ⟨a.origin, a.dest, a.weight⟩ = _
    unfold pull
    dsimp only
    by_cases hd : a.dest = c
    · rw [if_pos hd, if_pos hd]
      obtain ⟨o, ho⟩ := Dict.exists_get?_of_mem (hm.inv.ends a ha).1
      obtain ⟨fo, exo, umo, Lo, g1, g2, g3, -⟩ := h a.origin o ho
      rw [hcon _ _ ho, toSpec_of g1 g2 g3, ho]
      dsimp only [Option.map_some]
      rw [g2]
      unfold gain Concept.vector
      simp
    · rw [if_neg hd, if_neg hd]
  · unfold gain Concept.vector
    simp

/-- C109: two objects with the same contracting map, started differently: after `t` steps their activations differ by at most
`q ^ t` times the greatest initial difference. -/
theorem C109_forgets {m k m' k' : FCM ℝ} (hm : Vectorised m) (hk : Vectorised k) {q : ℝ} (hq : VecFlat m q)
    (hnet : k.net = m.net) (hkeys : k.topology.keys = m.topology.keys) {δ : ℝ}
    (h0 : ∀ c ∈ m.topology.keys, |at' m.traj 0 c - at' k.traj 0 c| ≤ δ) (rm : FCM.runInference true m = (.ok (), m'))
    (rk : FCM.runInference true k = (.ok (), k')) {c : String} (hc : c ∈ m.topology.keys) {t : Nat}
    (h1 : t < (m'.traj c).length) (h2 : t < (k'.traj c).length) :
    |at' m'.traj t c - at' k'.traj t c| ≤ q ^ t * δ := by
  obtain ⟨a, ha, ia⟩ := vec_run hm rm
  obtain ⟨b, hb, ib⟩ := vec_run hk rk
  rw [hnet, hkeys] at hb
  rw [hkeys] at ib
  rw [(ha c hc).1] at h1
  rw [(hb c hc).1] at h2
  have := run_diff (contracting_vector hm.clean.reachable hq) (origins_vector hm.clean.reachable) ha hb (a := 0) (b := 0) (δ := δ)
    (fun d hd => by rw [ia d hd (by omega), ib d hd (by omega)]; exact h0 d hd) t (by omega) (by omega) c hc
  simpa using this

/-- C109: a contracting map has exactly one equilibrium, as the vectorised engine sees the map, and what that engine records
approaches it geometrically. -/
theorem C109_equilibrium {m : FCM ℝ} (hm : Vectorised m) {q : ℝ} (hq : VecFlat m q) (q0 : 0 ≤ q) (q1 : q < 1) :
    ∃ X, Equilibrium m.net.vector m.topology.keys X ∧
      (∀ Y, Equilibrium m.net.vector m.topology.keys Y → ∀ c ∈ m.topology.keys, Y c = X c) ∧
      ∀ k k' : FCM ℝ, Vectorised k → k.net = m.net → k.topology.keys = m.topology.keys →
        FCM.runInference true k = (.ok (), k') → ∀ δ, (∀ c ∈ m.topology.keys, |at' k.traj 0 c - X c| ≤ δ) →
        ∀ c ∈ m.topology.keys, ∀ t, t < (k'.traj c).length → |at' k'.traj t c - X c| ≤ q ^ t * δ := by
  have hC := contracting_vector hm.clean.reachable hq
  have hO := origins_vector hm.clean.reachable
  obtain ⟨X, hX⟩ := exists_equilibrium q0 q1 hC hO fun A c hc => by
    obtain ⟨v, hv, -⟩ := next_vector_real hm.clean.clean hm.args A hc
    exact ⟨v, hv⟩
  refine ⟨X, hX, fun Y hY c hc => ?_, fun k k' hk hnet hkeys rk δ hδ c hc t ht => ?_⟩
  · have := near_equilibrium q1 hC hO hX (A := Y) (B := Y) hY (ε := 0) (fun c _ => by simp) hc
    rw [zero_div] at this
    have := abs_nonpos_iff.1 this
    linarith
  · obtain ⟨b, hb, ib⟩ := vec_run hk rk
    rw [hnet, hkeys] at hb
    rw [hkeys] at ib
    rw [(hb c hc).1] at ht
    induction t generalizing c with
    | zero => rw [ib c hc ht]; simpa using hδ c hc
    | succ t ih =>
      have := next_diff hC hO (fun d hd => ih d hd (by omega)) hc ((hb c hc).2 t ht) (hX c hc)
      rw [pow_succ]
      calc _ ≤ q * (q ^ t * δ) := this
        _ = q ^ t * q * δ := by ring

/-- C109: with a threshold above 0 and enough iterations allowed the vectorised engine returns. -/
theorem C109_returns {m : FCM ℝ} (hm : Vectorised m) (hdec : m.decisionName ≠ "EXITED") {q : ℝ} (hq : VecFlat m q)
    (q0 : 0 ≤ q) (q1 : q ≤ 1) {n : Nat} (hn : m.topology.length * (q ^ n * 2) < m.stabilityDiff)
    (hmax : (n : Int) + m.extraSteps + 1 ≤ m.maxIter) : ∃ m', FCM.runInference true m = (.ok (), m') := by
  have hlk : m.topology.keys.length = m.topology.length := by simp [Dict.keys]
  obtain ⟨x, e0, hx, hrange, hiff, -⟩ := C105_real hm.clean hm.off hm.nonempty hdec hm.args hm.start
  have hC := contracting_vector hm.clean.reachable hq
  have hO := origins_vector hm.clean.reachable
  have hstep : ∀ t, ∀ c ∈ m.topology.keys, |x (t + 1) c - x t c| ≤ q ^ t * 2 := by
    intro t
    induction t with
    | zero =>
      intro c hc
      have a := hrange 1 c hc
      have b := hrange 0 c hc
      rw [abs_le]
      constructor <;> linarith
    | succ t ih =>
      intro c hc
      have := next_diff hC hO (ih) hc (hx (t + 1) c hc) (hx t c hc)
      rw [pow_succ]
      calc _ ≤ q * (q ^ t * 2) := this
        _ = q ^ t * q * 2 := by ring
  have hok := hiff.2 ⟨n + m.extraSteps + 1, by push_cast; omega, by omega, fun s a b => ?_⟩
  · exact ⟨_, by rw [← hok]⟩
  · have hs : n ≤ s - 1 := by omega
    have e : s - 1 + 1 = s := by omega
    have := sum_diff_le (cs := m.topology.keys) (f := x s) (g := x (s - 1)) (ε := q ^ n * 2) fun c hc => by
      have h1 := hstep (s - 1) c hc
      rw [e] at h1
      exact h1.trans (mul_le_mul_of_nonneg_right (pow_le_pow_of_le_one q0 q1 hs) (by norm_num))
    rw [hlk] at this
    linarith

/-! ### Concrete cases -/

namespace Ex

noncomputable def dimOps (x : ℝ) : List (Op ℝ) :=
  [.addConcept "a" { isActive := some false }, .addConcept "b" {}, .addRelation "a" "b" (1/4), .addRelation "a" "b" (1/2),
   .initConcept "a" (1/2) true, .assignDebug false, .initConcept "b" x true]

/-- An inactive a with two relations into b, sigmoid with memory; b starts at `x`. -/
noncomputable def dim (x : ℝ) : FCM ℝ := runOps (dimOps x) flat0

theorem dim_clean (x : ℝ) : CleanReachable (dim x) := cleanReachable_of (.new flat0_new) (dimOps x) rfl
theorem dim_keys (x : ℝ) : (dim x).topology.keys = ["a", "b"] := rfl
theorem dim_arcs (x : ℝ) : (dim x).arcList = [⟨"b", 1/4, "a"⟩, ⟨"b", 1/2, "a"⟩] := rfl

theorem dim_node (x : ℝ) {c : String} (h : c = "a" ∨ c = "b") : ∃ o, (dim x).topology.get? c = some o ∧
    o.fn = some ⟨.sigmoid, "sigmoid", []⟩ ∧ o.exec = some (.kosko, "KOSKO") ∧ o.useMem = some true := by
  rcases h with rfl | rfl
  · exact ⟨_, rfl, rfl, rfl, rfl⟩
  · exact ⟨_, rfl, rfl, rfl, rfl⟩

theorem dim_cases (x : ℝ) {c : String} {n : Node ℝ} (hn : (dim x).topology.get? c = some n) : c = "a" ∨ c = "b" := by
  have hk : c ∈ (dim x).topology.keys := Dict.mem_keys_of_get? hn
  rw [dim_keys] at hk
  simpa using hk

theorem dim_fn (x : ℝ) {c : String} {n : Node ℝ} {f : FnInfo ℝ} (hn : (dim x).topology.get? c = some n) (hf : n.fn = some f) :
    f = ⟨.sigmoid, "sigmoid", []⟩ := by
  obtain ⟨o, g1, g2, -⟩ := dim_node x (dim_cases x hn)
  rw [g1] at hn
  cases hn
  rw [g2] at hf
  cases hf
  rfl

theorem dim_vec {x : ℝ} (h1 : -1 ≤ x) (h2 : x ≤ 1) : Vectorised (dim x) := by
  refine ⟨dim_clean x, rfl, fun h => ?_, fun c n f hn hf => ?_, fun c hc => ?_⟩
  · have := congrArg Dict.keys h
    rw [dim_keys] at this
    cases this
  · obtain rfl := dim_fn x hn hf
    exact SlopeArgs.proper (L := 1/4) (.inl ⟨rfl, rfl⟩)
  · rw [dim_keys] at hc
    simp only [List.mem_cons, List.not_mem_nil, or_false] at hc
    rcases hc with rfl | rfl
    · show -1 ≤ (1/2 : ℝ) ∧ (1/2 : ℝ) ≤ 1
      norm_num
    · exact ⟨h1, h2⟩

/-- The slope is 1/4 and the load of b at most 3/4 + 1. -/
theorem dim_flat (x : ℝ) : VecFlat (dim x) (7/16) := by
  intro c n hn
  obtain ⟨oa, ga, fa, xa, ua⟩ := dim_node x (.inl rfl)
  obtain ⟨ob, gb, fb, xb, ub⟩ := dim_node x (.inr rfl)
  have hba : ("b" : String) ≠ "a" := by decide
  have hkp : ("KOSKO" : String) ≠ "PAPAGEORGIUS" := by decide
  rcases dim_cases x hn with rfl | rfl
  · rw [ga] at hn
    obtain rfl := Option.some.inj hn
    refine ⟨_, _, _, 1/4, fa, xa, ua, .inl ⟨rfl, rfl⟩, ?_⟩
    rw [dim_arcs]
    simp only [List.map_cons, List.map_nil, if_neg hba, if_true, if_neg hkp, List.sum_cons, List.sum_nil]
    norm_num
  · rw [gb] at hn
    obtain rfl := Option.some.inj hn
    refine ⟨_, _, _, 1/4, fb, xb, ub, .inl ⟨rfl, rfl⟩, ?_⟩
    rw [dim_arcs]
    simp only [List.map_cons, List.map_nil, if_true, ga, xa, Option.map_some, Option.some.injEq, if_neg hkp,
      List.sum_cons, List.sum_nil]
    norm_num [abs_of_nonneg]

theorem dim_run {x : ℝ} (h1 : -1 ≤ x) (h2 : x ≤ 1) : ∃ m', FCM.runInference true (dim x) = (.ok (), m') :=
  C109_returns (dim_vec h1 h2) (show "LAST" ≠ "EXITED" by decide) (dim_flat x) (by norm_num) (by norm_num) (n := 11)
    (by
      have hd : (dim x).stabilityDiff = 1/1000 := by
        show (dec 1 1000 : ℝ) = _
        norm_num [dec]
      have hl : (dim x).topology.length = 2 := rfl
      rw [hd, hl]
      norm_num)
    (by show (11 : Int) + (5 : Nat) + 1 ≤ 200; norm_num)

theorem dim_net (x y : ℝ) : (dim x).net = (dim y).net := by
  unfold FCM.net
  congr 1
  funext c
  by_cases e1 : c = "a"
  · subst e1; rfl
  · by_cases e2 : c = "b"
    · subst e2; rfl
    · rw [(Dict.get?_eq_none_iff _ _).2 (by rw [dim_keys]; simp [e1, e2]),
        (Dict.get?_eq_none_iff _ _).2 (by rw [dim_keys]; simp [e1, e2])]

theorem dim_again (x y : ℝ) : ∃ k, FCM.initConcept "b" y true (dim x) = (.ok (), k) ∧ k = dim y := ⟨_, rfl, rfl⟩

theorem dim_b (x : ℝ) : at' (dim x).traj 0 "b" = x := rfl
theorem dim_a (x : ℝ) : at' (dim x).traj 0 "a" = 1/2 := rfl

/-- Nothing leads from b to a. -/
theorem dim_free (x : ℝ) : ¬ Influences (dim x).net "b" "a" := by
  have key : ∀ c, Influences (dim x).net "b" c → c = "b" := by
    intro c h
    induction h with
    | self => rfl
    | along r hr _ _ =>
      have : r ∈ ([⟨"b", 1/4, "a"⟩, ⟨"b", 1/2, "a"⟩] : List (Arc ℝ)).map Arc.toSpec := hr
      simp only [List.map_cons, List.map_nil, List.mem_cons, List.not_mem_nil, or_false] at this
      rcases this with rfl | rfl <;> rfl
  intro h
  exact absurd (key _ h) (by decide)

end Ex

/-- Starting b at -1 or at 1 makes no difference to a; the runs of b stay in that order, and differ by at most (7/16)^t * 2. -/
example : ∃ m' k', FCM.runInference true (Ex.dim (-1)) = (.ok (), m') ∧ FCM.runInference true (Ex.dim 1) = (.ok (), k') ∧
    (∀ t, t < (m'.traj "a").length → t < (k'.traj "a").length → at' m'.traj t "a" = at' k'.traj t "a") ∧
    ∀ t, t < (m'.traj "b").length → t < (k'.traj "b").length →
      at' m'.traj t "b" ≤ at' k'.traj t "b" ∧ |at' m'.traj t "b" - at' k'.traj t "b"| ≤ (7/16) ^ t * 2 := by
  have v1 : Vectorised (Ex.dim (-1)) := Ex.dim_vec (le_refl _) (by norm_num)
  have v2 : Vectorised (Ex.dim 1) := Ex.dim_vec (by norm_num) (le_refl _)
  obtain ⟨m', hm⟩ := Ex.dim_run (le_refl (-1 : ℝ)) (by norm_num)
  obtain ⟨k', hk⟩ := Ex.dim_run (x := 1) (by norm_num) (le_refl _)
  obtain ⟨k, hi, rfl⟩ := Ex.dim_again (-1) 1
  have hcs : ∀ c ∈ (Ex.dim (-1)).topology.keys, c = "a" ∨ c = "b" := fun c hc => by
    rw [Ex.dim_keys] at hc
    simpa using hc
  have hb : "b" ∈ (Ex.dim (-1)).topology.keys := by rw [Ex.dim_keys]; simp
  refine ⟨m', k', hm, hk, fun t h1 h2 => C109_init v1 v2 hi hm hk (by rw [Ex.dim_keys]; simp) (Ex.dim_free _) h1 h2,
    fun t h1 h2 => ⟨?_, ?_⟩⟩
  · refine C109_order v1 v2 (fun a ha => ?_) (fun c n f hn hf => ?_) (Ex.dim_net _ _) rfl (fun c hc => ?_) hm hk hb h1 h2
    · rw [Ex.dim_arcs] at ha
      simp only [List.mem_cons, List.not_mem_nil, or_false] at ha
      rcases ha with rfl | rfl <;> norm_num
    · obtain rfl := Ex.dim_fn _ hn hf
      exact .inl rfl
    · rcases hcs c hc with rfl | rfl
      · exact le_refl _
      · rw [Ex.dim_b, Ex.dim_b]; norm_num
  · refine C109_forgets v1 v2 (Ex.dim_flat _) (Ex.dim_net _ _) rfl (fun c hc => ?_) hm hk hb h1 h2
    rcases hcs c hc with rfl | rfl
    · rw [Ex.dim_a, Ex.dim_a]; norm_num
    · rw [Ex.dim_b, Ex.dim_b]; norm_num

/-- Its equilibrium. -/
example := C109_equilibrium (Ex.dim_vec (x := 0) (by norm_num) (by norm_num)) (Ex.dim_flat 0) (by norm_num) (by norm_num)

namespace Ex

/-- The same with a further relation from b to b. -/
noncomputable def dimR : FCM ℝ := (FCM.addRelation "b" "b" (1/4) (dim 0)).2

theorem dimR_add : FCM.addRelation "b" "b" (1/4) (dim 0) = (.ok (), dimR) := rfl
theorem dimR_clean : CleanReachable dimR := .step (.addRelation "b" "b" (1/4)) (dim_clean 0) dimR_add
theorem dimR_keys : dimR.topology.keys = ["a", "b"] := rfl
theorem dimR_arcs : dimR.arcList = [⟨"b", 1/4, "a"⟩, ⟨"b", 1/2, "a"⟩, ⟨"b", 1/4, "b"⟩] := rfl

theorem dimR_node {c : String} (h : c = "a" ∨ c = "b") : ∃ o, dimR.topology.get? c = some o ∧
    o.fn = some ⟨.sigmoid, "sigmoid", []⟩ ∧ o.exec = some (.kosko, "KOSKO") ∧ o.useMem = some true := by
  rcases h with rfl | rfl
  · exact ⟨_, rfl, rfl, rfl, rfl⟩
  · exact ⟨_, rfl, rfl, rfl, rfl⟩

theorem dimR_cases {c : String} (hk : c ∈ dimR.topology.keys) : c = "a" ∨ c = "b" := by
  rw [dimR_keys] at hk
  simpa using hk

theorem dimR_vec : Vectorised dimR := by
  refine ⟨dimR_clean, rfl, fun h => ?_, fun c n f hn hf => ?_, fun c hc => ?_⟩
  · have := congrArg Dict.keys h
    rw [dimR_keys] at this
    cases this
  · obtain ⟨o, g1, g2, -⟩ := dimR_node (dimR_cases (Dict.mem_keys_of_get? hn))
    rw [g1] at hn
    cases hn
    rw [g2] at hf
    cases hf
    exact SlopeArgs.proper (L := 1/4) (.inl ⟨rfl, rfl⟩)
  · rcases dimR_cases hc with rfl | rfl
    · show -1 ≤ (1/2 : ℝ) ∧ (1/2 : ℝ) ≤ 1
      norm_num
    · show -1 ≤ (0 : ℝ) ∧ (0 : ℝ) ≤ 1
      norm_num

theorem dimR_flat : VecFlat dimR (1/2) := by
  intro c n hn
  obtain ⟨oa, ga, fa, xa, ua⟩ := dimR_node (.inl rfl)
  obtain ⟨ob, gb, fb, xb, ub⟩ := dimR_node (.inr rfl)
  have hba : ("b" : String) ≠ "a" := by decide
  have hkp : ("KOSKO" : String) ≠ "PAPAGEORGIUS" := by decide
  rcases dimR_cases (Dict.mem_keys_of_get? hn) with rfl | rfl
  · rw [ga] at hn
    obtain rfl := Option.some.inj hn
    refine ⟨_, _, _, 1/4, fa, xa, ua, .inl ⟨rfl, rfl⟩, ?_⟩
    rw [dimR_arcs]
    simp only [List.map_cons, List.map_nil, if_neg hba, if_true, if_neg hkp, List.sum_cons, List.sum_nil]
    norm_num
  · rw [gb] at hn
    obtain rfl := Option.some.inj hn
    refine ⟨_, _, _, 1/4, fb, xb, ub, .inl ⟨rfl, rfl⟩, ?_⟩
    rw [dimR_arcs]
    simp only [List.map_cons, List.map_nil, if_true, ga, xa, gb, xb, Option.map_some, Option.some.injEq, if_neg hkp,
      List.sum_cons, List.sum_nil]
    norm_num [abs_of_nonneg]

theorem dimR_run : ∃ m', FCM.runInference true dimR = (.ok (), m') :=
  C109_returns dimR_vec (show "LAST" ≠ "EXITED" by decide) dimR_flat (by norm_num) (by norm_num) (n := 12)
    (by
      have hd : dimR.stabilityDiff = 1/1000 := by
        show (dec 1 1000 : ℝ) = _
        norm_num [dec]
      have hl : dimR.topology.length = 2 := rfl
      rw [hd, hl]
      norm_num)
    (by show (12 : Int) + (5 : Nat) + 1 ≤ 200; norm_num)

end Ex

/-- A further relation into b leaves a alone. -/
example : ∃ m' k', FCM.runInference true (Ex.dim 0) = (.ok (), m') ∧ FCM.runInference true Ex.dimR = (.ok (), k') ∧
    ∀ t, t < (m'.traj "a").length → t < (k'.traj "a").length → at' m'.traj t "a" = at' k'.traj t "a" := by
  obtain ⟨m', hm⟩ := Ex.dim_run (x := 0) (by norm_num) (by norm_num)
  obtain ⟨k', hk⟩ := Ex.dimR_run
  exact ⟨m', k', hm, hk, fun t h1 h2 => C109_relation (Ex.dim_vec (by norm_num) (by norm_num)) Ex.dimR_vec Ex.dimR_add hm hk
    (by rw [Ex.dim_keys]; simp) (Ex.dim_free 0) h1 h2⟩

end PyFCM
