import Verif.Props.VecChange
import Verif.Props.Cycles
import Verif.Props.Acyclic
import Mathlib.Order.FixedPoints
import Mathlib.Order.CompleteLatticeIntervals
import Mathlib.Algebra.BigOperators.Group.Finset.Basic
import Mathlib.Algebra.Order.BigOperators.Group.Finset
/-
C127: equilibria of maps whose relations excite, and runs towards them.
-/
namespace PyFCM
open Arith Spec

/-! ### C127: excitatory maps have a least and a greatest equilibrium, and runs that start one way settle -/

/-- The first step from `A` lowers no concept. -/
def Spec.Uphill (N : Net ℝ) (cs : List String) (A : String → ℝ) : Prop := ∀ c ∈ cs, ∃ v, next N A c = some (.ok v) ∧ A c ≤ v

/-- The first step from `A` raises no concept. -/
def Spec.Downhill (N : Net ℝ) (cs : List String) (A : String → ℝ) : Prop := ∀ c ∈ cs, ∃ v, next N A c = some (.ok v) ∧ v ≤ A c

/-! ### Orbits of excitatory networks -/

section
variable {N : Net ℝ} {cs : List String} {x : Nat → String → ℝ} {n : Nat}

theorem next_order (hN : Excitatory N) (hcs : ∀ r ∈ N.rels, r.origin ∈ cs) {A B : String → ℝ} (h : ∀ c ∈ cs, A c ≤ B c) {c : String}
    (hc : c ∈ cs) {u v : ℝ} (hu : next N A c = some (.ok u)) (hv : next N B c = some (.ok v)) : u ≤ v := by
  cases hcon : N.concept c with
  | none => unfold next at hu; rw [hcon] at hu; cases hu
  | some q =>
    refine next_le hcon hcon (hN.rising c q hcon) ?_ (h c hc) hu hv
    rw [total_real, total_real]
    exact inputs_mono hN.weights fun r hr => h _ (hcs r hr)

/-- The steps of a run, as far as it goes. -/
def Steps (N : Net ℝ) (cs : List String) (x : Nat → String → ℝ) (n : Nat) : Prop :=
  ∀ t, t + 1 ≤ n → ∀ c ∈ cs, next N (x t) c = some (.ok (x (t + 1) c))

theorem steps_run {traj : String → List ℝ} {len : Nat} (h : IsRun N cs traj len) : Steps N cs (at' traj) (len - 1) :=
  fun t ht c hc => (h c hc).2 t (by omega)

theorem rises (hN : Excitatory N) (hcs : ∀ r ∈ N.rels, r.origin ∈ cs) (hx : Steps N cs x n) {A : String → ℝ}
    (h0 : ∀ c ∈ cs, x 0 c = A c) (hA : Uphill N cs A) : ∀ t, t + 1 ≤ n → ∀ c ∈ cs, x t c ≤ x (t + 1) c := by
  intro t
  induction t with
  | zero =>
    intro ht c hc
    obtain ⟨v, hv, hle⟩ := hA c hc
    rw [h0 c hc]
    exact hle.trans (next_order hN hcs (fun c hc => (h0 c hc).ge) hc hv (hx 0 ht c hc))
  | succ t ih =>
    intro ht c hc
    exact next_order hN hcs (fun c hc => ih (by omega) c hc) hc (hx t (by omega) c hc) (hx (t + 1) ht c hc)

theorem falls (hN : Excitatory N) (hcs : ∀ r ∈ N.rels, r.origin ∈ cs) (hx : Steps N cs x n) {A : String → ℝ}
    (h0 : ∀ c ∈ cs, x 0 c = A c) (hA : Downhill N cs A) : ∀ t, t + 1 ≤ n → ∀ c ∈ cs, x (t + 1) c ≤ x t c := by
  intro t
  induction t with
  | zero =>
    intro ht c hc
    obtain ⟨v, hv, hle⟩ := hA c hc
    rw [h0 c hc]
    exact (next_order hN hcs (fun c hc => (h0 c hc).le) hc (hx 0 ht c hc) hv).trans hle
  | succ t ih =>
    intro ht c hc
    exact next_order hN hcs (fun c hc => ih (by omega) c hc) hc (hx (t + 1) ht c hc) (hx t (by omega) c hc)

theorem stays_below (hN : Excitatory N) (hcs : ∀ r ∈ N.rels, r.origin ∈ cs) (hx : Steps N cs x n) {X : String → ℝ}
    (hX : Equilibrium N cs X) (h0 : ∀ c ∈ cs, x 0 c ≤ X c) : ∀ t, t ≤ n → ∀ c ∈ cs, x t c ≤ X c := by
  intro t
  induction t with
  | zero => intro _; exact h0
  | succ t ih => intro ht c hc; exact next_order hN hcs (ih (by omega)) hc (hx t ht c hc) (hX c hc)

theorem stays_above (hN : Excitatory N) (hcs : ∀ r ∈ N.rels, r.origin ∈ cs) (hx : Steps N cs x n) {X : String → ℝ}
    (hX : Equilibrium N cs X) (h0 : ∀ c ∈ cs, X c ≤ x 0 c) : ∀ t, t ≤ n → ∀ c ∈ cs, X c ≤ x t c := by
  intro t
  induction t with
  | zero => intro _; exact h0
  | succ t ih => intro ht c hc; exact next_order hN hcs (ih (by omega)) hc (hX c hc) (hx t ht c hc)

/-- All changes of a run that goes one way add up to little. -/
theorem way (h : (∀ t, t + 1 ≤ n → ∀ c ∈ cs, x t c ≤ x (t + 1) c) ∨ ∀ t, t + 1 ≤ n → ∀ c ∈ cs, x (t + 1) c ≤ x t c)
    (hr : ∀ t, t ≤ n → ∀ c ∈ cs, -1 ≤ x t c ∧ x t c ≤ 1) {k : Nat} (hk : k ≤ n) :
    ∑ t ∈ Finset.range k, (cs.map fun c => |x (t + 1) c - x t c|).sum ≤ 2 * cs.length := by
  have key : ∀ k, k ≤ n → (∑ t ∈ Finset.range k, (cs.map fun c => |x (t + 1) c - x t c|).sum = (cs.map fun c => |x k c - x 0 c|).sum) := by
    intro k
    induction k with
    | zero => intro _; simp
    | succ k ih =>
      intro hk
      rw [Finset.sum_range_succ, ih (by omega), ← List.sum_map_add]
      congr 1
      refine List.map_congr_left fun c hc => ?_
      rcases h with h | h
      · have h1 := h k hk c hc
        have h2 : ∀ t, t ≤ k → x 0 c ≤ x t c := by
          intro t
          induction t with
          | zero => intro _; exact le_refl _
          | succ t iht => intro ht; exact (iht (by omega)).trans (h t (by omega) c hc)
        have h2 := h2 k (le_refl _)
        rw [abs_of_nonneg (by linarith), abs_of_nonneg (by linarith), abs_of_nonneg (by linarith)]
        ring
      · have h1 := h k hk c hc
        have h2 : ∀ t, t ≤ k → x t c ≤ x 0 c := by
          intro t
          induction t with
          | zero => intro _; exact le_refl _
          | succ t iht => intro ht; exact (h t (by omega) c hc).trans (iht (by omega))
        have h2 := h2 k (le_refl _)
        rw [abs_of_nonpos (by linarith), abs_of_nonpos (by linarith), abs_of_nonpos (by linarith)]
        ring
  rw [key k hk]
  have : ∀ y ∈ cs.map (fun c => |x k c - x 0 c|), y ≤ 2 := by
    intro y hy
    obtain ⟨c, hc, rfl⟩ := List.mem_map.1 hy
    have h1 := hr k hk c hc
    have h2 := hr 0 (by omega) c hc
    rw [abs_le]
    constructor <;> linarith [h1.1, h1.2, h2.1, h2.2]
  have := List.sum_le_card_nsmul _ _ this
  simpa [mul_comm] using this

/-- Tarski: least and greatest equilibrium. -/
theorem extremes (hN : Excitatory N) (hcs : ∀ r ∈ N.rels, r.origin ∈ cs)
    (htot : ∀ A, ∀ c ∈ cs, ∃ v, next N A c = some (.ok v) ∧ -1 ≤ v ∧ v ≤ 1) :
    ∃ L G, Equilibrium N cs L ∧ Equilibrium N cs G ∧ ∀ X, Equilibrium N cs X → ∀ c ∈ cs, L c ≤ X c ∧ X c ≤ G c := by
  have : Fact ((-1 : ℝ) ≤ 1) := ⟨by norm_num⟩
  choose v hv hr using htot
  let F : ({c // c ∈ cs} → Set.Icc (-1 : ℝ) 1) →o ({c // c ∈ cs} → Set.Icc (-1 : ℝ) 1) :=
    { toFun := fun y c => ⟨v (extend cs fun d => (y d : ℝ)) c.1 c.2, hr _ _ _⟩
      monotone' := by
        intro y z hyz c
        refine Subtype.coe_le_coe.1 (next_order hN hcs (fun d hd => ?_) c.2 (hv _ _ _) (hv _ _ _))
        unfold extend
        rw [dif_pos hd, dif_pos hd]
        exact hyz ⟨d, hd⟩ }
  have fix : ∀ y, F y = y → Equilibrium N cs (extend cs fun d => (y d : ℝ)) := by
    intro y hy c hc
    have h1 := hv (extend cs fun d => (y d : ℝ)) c hc
    have h2 : v (extend cs fun d => (y d : ℝ)) c hc = y ⟨c, hc⟩ := congrArg Subtype.val (congrFun hy ⟨c, hc⟩)
    rw [h1, h2]
    unfold extend
    rw [dif_pos hc]
  have back : ∀ X, Equilibrium N cs X → ∃ y : {c // c ∈ cs} → Set.Icc (-1 : ℝ) 1, F y = y ∧ ∀ c hc, (y ⟨c, hc⟩ : ℝ) = X c := by
    intro X hX
    have hrange : ∀ c ∈ cs, -1 ≤ X c ∧ X c ≤ 1 := by
      intro c hc
      have h1 := hv X c hc
      rw [hX c hc] at h1
      have h1 : X c = v X c hc := Except.ok.inj (Option.some.inj h1)
      rw [h1]
      exact hr X c hc
    refine ⟨fun c => ⟨X c.1, hrange c.1 c.2⟩, ?_, fun c hc => rfl⟩
    funext c
    refine Subtype.ext ?_
    have e : ∀ d ∈ cs, extend cs (fun d => X d.1) d = X d := fun d hd => by unfold extend; rw [dif_pos hd]
    exact le_antisymm (next_order hN hcs (fun d hd => (e d hd).le) c.2 (hv _ c.1 c.2) (hX c.1 c.2))
      (next_order hN hcs (fun d hd => (e d hd).ge) c.2 (hX c.1 c.2) (hv _ c.1 c.2))
  refine ⟨_, _, fix _ F.map_lfp, fix _ F.map_gfp, fun X hX c hc => ?_⟩
  obtain ⟨y, hy, hyX⟩ := back X hX
  rw [← hyX c hc]
  unfold extend
  rw [dif_pos hc, dif_pos hc]
  exact ⟨F.lfp_le_fixed hy ⟨c, hc⟩, F.le_gfp hy.ge ⟨c, hc⟩⟩

end

/-! ### The functions -/

theorem RisingArgs.proper {f : FnInfo ℝ} (h : RisingArgs f) : ProperArgs f ∧ TameArgs f := by
  unfold RisingArgs at h
  unfold ProperArgs TameArgs
  cases hf : f.fn <;> rw [hf] at h <;> simp only at h ⊢
  case bistate => exact ⟨h, trivial⟩
  case threestate => exact ⟨h, trivial⟩
  case saturation => exact ⟨h, trivial⟩
  case sigmoid => exact ⟨h.imp id fun ⟨l, _, e⟩ => ⟨l, e⟩, trivial⟩
  case sigmoidHip => exact ⟨h.imp id fun ⟨l, _, e⟩ => ⟨l, e⟩, trivial⟩
  case gceq => exact ⟨.inr (h.imp fun l e => e.2), trivial⟩
  case lceq => exact ⟨.inr (h.imp fun l e => e.2), trivial⟩
  case relm =>
    rcases h with e | ⟨l, hl, e⟩
    · rw [e]; exact ⟨.inl rfl, fun l hl => by cases hl⟩
    · refine ⟨.inr ⟨l, hl.ne', e⟩, fun l' hl' => ?_⟩
      rw [e] at hl'
      simp only [List.mem_singleton, Prod.mk.injEq, ArgVal.num.injEq, true_and] at hl'
      rw [hl']
      exact hl

theorem rising_next {m : FCM ℝ} (hm : CleanReachable m)
    (hf : ∀ c n f, m.topology.get? c = some n → n.fn = some f → RisingArgs f) (A : String → ℝ) {c : String}
    (hc : c ∈ m.topology.keys) : ∃ v, next m.net A c = some (.ok v) ∧ -1 ≤ v ∧ v ≤ 1 := by
  obtain ⟨n, hn⟩ := Dict.exists_get?_of_mem hc
  have hg := (hm.clean.good c n hn).full
  obtain ⟨f, e1⟩ := Option.isSome_iff_exists.1 hg.fn
  obtain ⟨um, e2⟩ := Option.isSome_iff_exists.1 hg.useMem
  obtain ⟨ex, e3⟩ := Option.isSome_iff_exists.1 hg.exec
  have hr := hf c n f hn e1
  have hname : f.name ≠ "fuzzy" := by
    intro e
    have hok : Activation.getFunctionByName f.name = some f.fn := (hm.reachable.inv.nodes c n hn).fn f e1
    rw [e] at hok
    have hok : f.fn = .fuzzy := (Option.some.inj hok).symm
    unfold RisingArgs at hr
    rw [hok] at hr
    exact hr
  unfold next
  rw [concept_node hn, toSpec_of e1 e3 e2, if_neg hname]
  simp only [Option.map_some, Option.some.injEq]
  obtain ⟨v, hv⟩ := callActv_total hr.proper.1 (if um = true then total (inputs m.net A c) + source ⟨n.active, ex.2 == "PAPAGEORGIUS", um, none, fun x => callActv f.fn x f.args⟩ (A c) else total (inputs m.net A c))
  exact ⟨v, hv, callActv_range hr.proper.2 hv⟩

/-! ### What the engines do -/

/-- All relations excite and all functions rise. -/
structure Lifting (m : FCM ℝ) : Prop where
  clean : CleanReachable m
  weights : ∀ a ∈ m.arcList, 0 ≤ a.weight
  rising : ∀ c n f, m.topology.get? c = some n → n.fn = some f → RisingArgs f

theorem Lifting.excitatory {m : FCM ℝ} (h : Lifting m) : Excitatory m.net := excitatory_of h.clean.reachable h.weights h.rising

theorem Lifting.total {m : FCM ℝ} (h : Lifting m) (A : String → ℝ) : ∀ c ∈ m.topology.keys,
    ∃ v, next m.net A c = some (.ok v) ∧ -1 ≤ v ∧ v ≤ 1 := fun _ hc => rising_next h.clean h.rising A hc

theorem Lifting.args {m : FCM ℝ} (h : Lifting m) : ∀ c n f, m.topology.get? c = some n → n.fn = some f → ProperArgs f ∧ TameArgs f :=
  fun c n f hn hf => (h.rising c n f hn hf).proper

/-- C127: such a map has a least and a greatest equilibrium. -/
theorem C127_extremes {m : FCM ℝ} (hm : Lifting m) : ∃ L G, Equilibrium m.net m.topology.keys L ∧ Equilibrium m.net m.topology.keys G ∧
    ∀ X, Equilibrium m.net m.topology.keys X → ∀ c ∈ m.topology.keys, L c ≤ X c ∧ X c ≤ G c :=
  extremes hm.excitatory (origins hm.clean.reachable) hm.total

/-- C127: a run that starts between two equilibria stays between them. -/
theorem C127_between {m m' : FCM ℝ} (hm : Lifting m) (hd : m.debug = true) (h : FCM.runInference true m = (.ok (), m'))
    {X : String → ℝ} (hX : Equilibrium m.net m.topology.keys X) :
    ((∀ c ∈ m.topology.keys, at' m.traj 0 c ≤ X c) → ∀ c ∈ m.topology.keys, ∀ t, t < m'.iterations → at' m'.traj t c ≤ X c) ∧
      ((∀ c ∈ m.topology.keys, X c ≤ at' m.traj 0 c) → ∀ c ∈ m.topology.keys, ∀ t, t < m'.iterations → X c ≤ at' m'.traj t c) := by
  obtain ⟨len, hi⟩ := run_iter hm.clean.reachable.inv hd h
  rw [hi.iters]
  refine ⟨fun h0 c hc t ht => ?_, fun h0 c hc t ht => ?_⟩
  · exact stays_below hm.excitatory (origins hm.clean.reachable) (steps_run hi.run) hX
      (fun c hc => by rw [(hi.init c hc).2]; exact h0 c hc) t (by omega) c hc
  · exact stays_above hm.excitatory (origins hm.clean.reachable) (steps_run hi.run) hX
      (fun c hc => by rw [(hi.init c hc).2]; exact h0 c hc) t (by omega) c hc

/-- C127: if the first step lowers no concept, no step does; and likewise upside down. -/
theorem C127_way {m m' : FCM ℝ} (hm : Lifting m) (hd : m.debug = true) (h : FCM.runInference true m = (.ok (), m')) :
    (Uphill m.net m.topology.keys (at' m.traj 0) → ∀ c ∈ m.topology.keys, ∀ t, t + 1 < m'.iterations → at' m'.traj t c ≤ at' m'.traj (t + 1) c) ∧
      (Downhill m.net m.topology.keys (at' m.traj 0) → ∀ c ∈ m.topology.keys, ∀ t, t + 1 < m'.iterations →
        at' m'.traj (t + 1) c ≤ at' m'.traj t c) := by
  obtain ⟨len, hi⟩ := run_iter hm.clean.reachable.inv hd h
  rw [hi.iters]
  exact ⟨fun h0 c hc t ht => rises hm.excitatory (origins hm.clean.reachable) (steps_run hi.run) (fun c hc => (hi.init c hc).2) h0 t (by omega) c hc,
    fun h0 c hc t ht => falls hm.excitatory (origins hm.clean.reachable) (steps_run hi.run) (fun c hc => (hi.init c hc).2) h0 t (by omega) c hc⟩

/-- C127: from the lowest values every map rises, from the highest it falls. -/
theorem C127_ends {m : FCM ℝ} (hm : Lifting m) {A : String → ℝ} :
    ((∀ c ∈ m.topology.keys, A c ≤ -1) → Uphill m.net m.topology.keys A) ∧ ((∀ c ∈ m.topology.keys, 1 ≤ A c) → Downhill m.net m.topology.keys A) := by
  refine ⟨fun h c hc => ?_, fun h c hc => ?_⟩
  · obtain ⟨v, h1, h2, -⟩ := hm.total A c hc
    exact ⟨v, h1, (h c hc).trans h2⟩
  · obtain ⟨v, h1, -, h2⟩ := hm.total A c hc
    exact ⟨v, h1, h2.trans (h c hc)⟩

/-- C127: where a run from below all equilibria comes to rest, it is in the least one. -/
theorem C127_rest {m m' : FCM ℝ} (hm : Lifting m) (hd : m.debug = true) (h : FCM.runInference true m = (.ok (), m'))
    (h0 : ∀ X, Equilibrium m.net m.topology.keys X → ∀ c ∈ m.topology.keys, at' m.traj 0 c ≤ X c) {t : Nat} (ht : t + 1 < m'.iterations)
    (hr : Rests m'.traj m.topology.keys t) :
    Equilibrium m.net m.topology.keys (at' m'.traj t) ∧
      ∀ X, Equilibrium m.net m.topology.keys X → ∀ c ∈ m.topology.keys, at' m'.traj t c ≤ X c := by
  obtain ⟨len, hi⟩ := run_iter hm.clean.reachable.inv hd h
  refine ⟨fun c hc => ?_, fun X hX c hc => (C127_between hm hd h hX).1 (h0 X hX) c hc t (by omega)⟩
  rw [← hr c hc]
  rw [hi.iters] at ht
  exact (hi.run c hc).2 t ht

/-- C127: all changes of a run that starts one way add up to at most twice the number of concepts. -/
theorem C127_sum {m m' : FCM ℝ} (hm : Lifting m) (hd : m.debug = true) (h : FCM.runInference true m = (.ok (), m'))
    (h0 : ∀ c ∈ m.topology.keys, -1 ≤ at' m.traj 0 c ∧ at' m.traj 0 c ≤ 1)
    (hw : Uphill m.net m.topology.keys (at' m.traj 0) ∨ Downhill m.net m.topology.keys (at' m.traj 0)) {k : Nat} (hk : k < m'.iterations) :
    ∑ t ∈ Finset.range k, (m.topology.keys.map fun c => |at' m'.traj (t + 1) c - at' m'.traj t c|).sum ≤ 2 * m.topology.keys.length := by
  obtain ⟨len, hi⟩ := run_iter hm.clean.reachable.inv hd h
  rw [hi.iters] at hk
  refine way (n := len - 1) (x := at' m'.traj) ?_ (fun t ht c hc => ?_) (by omega)
  · exact hw.imp (fun h0 => rises hm.excitatory (origins hm.clean.reachable) (steps_run hi.run) (fun c hc => (hi.init c hc).2) h0)
      (fun h0 => falls hm.excitatory (origins hm.clean.reachable) (steps_run hi.run) (fun c hc => (hi.init c hc).2) h0)
  · refine (C07_iterative hm.clean.reachable hd (fun c n f hn hf => (hm.args c n f hn hf).2) h0 h hc).1 _ ?_
    have hl := (hi.run c hc).1
    unfold at'
    rw [List.getD_eq_getElem?_getD, List.getElem?_eq_getElem (by omega)]
    exact List.getElem_mem _

/-- C127: so inference stops in time, whatever the limit of iterations. -/
theorem C127_stops {m m' : FCM ℝ} (hm : Lifting m) (hd : m.debug = true) (h : FCM.runInference true m = (.ok (), m'))
    (h0 : ∀ c ∈ m.topology.keys, -1 ≤ at' m.traj 0 c ∧ at' m.traj 0 c ≤ 1)
    (hw : Uphill m.net m.topology.keys (at' m.traj 0) ∨ Downhill m.net m.topology.keys (at' m.traj 0))
    (hstop : m.stopAtStabilize = true) (he : 0 < m.stabilityDiff) :
    (m'.iterations : ℝ) ≤ 2 + (m.extraSteps - 1) * (2 * m.topology.keys.length / m.stabilityDiff + 1) := by
  have hsum := fun k hk => C127_sum hm hd h h0 hw (k := k) hk
  obtain ⟨len, hi⟩ := run_iter hm.clean.reachable.inv hd h
  have hx := hm.clean.reachable.inv.extra
  obtain ⟨w, hwe⟩ : ∃ w, m.extraSteps = w + 1 := ⟨m.extraSteps - 1, by omega⟩
  have hst := hi.stops
  rw [hwe, Nat.add_sub_cancel] at hst
  rw [hi.iters] at hsum ⊢
  have hcnt : ∀ J, 2 + J * w < len → J * m.stabilityDiff ≤
      ∑ t ∈ Finset.range (J * w), (m.topology.keys.map fun c => |at' m'.traj (t + 1) c - at' m'.traj t c|).sum := by
    intro J
    induction J with
    | zero => intro _; simp
    | succ J ih =>
      intro hJ
      rw [Nat.succ_mul] at hJ ⊢
      rw [Finset.sum_range_add]
      have h1 := ih (by omega)
      obtain ⟨s, s1, s2, s3⟩ := hst.least (2 + (J * w + w)) (by omega) hJ
      have s4 : ¬ Spec.Calm m'.traj m.topology.keys m.stabilityDiff s := fun hc => s3 (.inr ⟨hstop, by omega, hc⟩)
      unfold Spec.Calm at s4
      push Not at s4
      obtain ⟨c, hc, s5⟩ := s4
      have s5 : m.stabilityDiff < |at' m'.traj (s - 1) c - at' m'.traj (s - 2) c| := by simpa using s5
      have nonneg : ∀ t, ∀ y ∈ m.topology.keys.map (fun c => |at' m'.traj (t + 1) c - at' m'.traj t c|), 0 ≤ y := by
        intro t y hy
        obtain ⟨d, -, rfl⟩ := List.mem_map.1 hy
        exact abs_nonneg _
      have h2 : |at' m'.traj (s - 1) c - at' m'.traj (s - 2) c| ≤
          (m.topology.keys.map fun c => |at' m'.traj (s - 2 + 1) c - at' m'.traj (s - 2) c|).sum := by
        refine List.single_le_sum (nonneg _) _ (List.mem_map.2 ⟨c, hc, ?_⟩)
        rw [show s - 2 + 1 = s - 1 by omega]
      have h3 : (m.topology.keys.map fun c => |at' m'.traj (s - 2 + 1) c - at' m'.traj (s - 2) c|).sum ≤
          ∑ t ∈ Finset.range w, (m.topology.keys.map fun c => |at' m'.traj (J * w + t + 1) c - at' m'.traj (J * w + t) c|).sum := by
        have := Finset.single_le_sum (s := Finset.range w) (a := s - 2 - J * w)
          (f := fun t => (m.topology.keys.map fun c => |at' m'.traj (J * w + t + 1) c - at' m'.traj (J * w + t) c|).sum)
          (fun t _ => List.sum_nonneg (nonneg _)) (Finset.mem_range.2 (by omega))
        rwa [show J * w + (s - 2 - J * w) = s - 2 by omega] at this
      push_cast
      linarith
  have hw' : (m.extraSteps : ℝ) - 1 = w := by rw [hwe]; push_cast; ring
  rw [hw']
  by_cases hlen : len < 3
  · have : (len : ℝ) ≤ 2 := by exact_mod_cast (by omega : len ≤ 2)
    have : 0 ≤ (w : ℝ) * (2 * m.topology.keys.length / m.stabilityDiff + 1) := by positivity
    linarith
  · have hw0 : 0 < w := by
      rcases Nat.eq_zero_or_pos w with rfl | h
      · obtain ⟨s, s1, s2, -⟩ := hst.least 1 (by omega) (by omega)
        omega
      · exact h
    have hJ := Nat.div_mul_le_self (len - 3) w
    have hJ' := Nat.lt_div_mul_add (a := len - 3) hw0
    set J := (len - 3) / w
    have h1 := hcnt J (by omega)
    have h2 := hsum (J * w) (by omega)
    have h3 : (J : ℝ) ≤ 2 * m.topology.keys.length / m.stabilityDiff := by
      rw [le_div_iff₀ he]
      linarith
    have h4 : (len : ℝ) ≤ 2 + (J * w + w) := by
      exact_mod_cast (by omega : len ≤ 2 + (J * w + w))
    have h5 : (w : ℝ) * J ≤ w * (2 * m.topology.keys.length / m.stabilityDiff) :=
      mul_le_mul_of_nonneg_left h3 (by positivity)
    linarith

/-! ### The vectorised engine -/

/-- C127: the map as the vectorised engine sees it has a least and a greatest equilibrium. -/
theorem C127_vector_extremes {m : FCM ℝ} (hm : Lifting m) : ∃ L G, Equilibrium m.net.vector m.topology.keys L ∧
    Equilibrium m.net.vector m.topology.keys G ∧
    ∀ X, Equilibrium m.net.vector m.topology.keys X → ∀ c ∈ m.topology.keys, L c ≤ X c ∧ X c ≤ G c :=
  extremes (excitatory_vector hm.excitatory) (origins_vector hm.clean.reachable)
    fun A _ hc => next_vector_real hm.clean.clean hm.args A hc

/-- C127: its runs that start one way go on that way. -/
theorem C127_vector_way {m m' : FCM ℝ} (hm : Lifting m) (hv : Vectorised m) (h : FCM.runInference true m = (.ok (), m')) :
    (Uphill m.net.vector m.topology.keys (at' m.traj 0) → ∀ c ∈ m.topology.keys, ∀ t, t + 1 < (m'.traj c).length →
        at' m'.traj t c ≤ at' m'.traj (t + 1) c) ∧
      (Downhill m.net.vector m.topology.keys (at' m.traj 0) → ∀ c ∈ m.topology.keys, ∀ t, t + 1 < (m'.traj c).length →
        at' m'.traj (t + 1) c ≤ at' m'.traj t c) := by
  obtain ⟨l, hr, hz⟩ := vec_run hv h
  refine ⟨fun h0 c hc t ht => ?_, fun h0 c hc t ht => ?_⟩
  all_goals rw [(hr c hc).1] at ht
  · exact rises (excitatory_vector hm.excitatory) (origins_vector hm.clean.reachable) (steps_run hr) (fun c hc => hz c hc (by omega)) h0 t (by omega) c hc
  · exact falls (excitatory_vector hm.excitatory) (origins_vector hm.clean.reachable) (steps_run hr) (fun c hc => hz c hc (by omega)) h0 t (by omega) c hc

/-- C127: and it returns, if enough iterations are allowed. -/
theorem C127_vector_returns {m : FCM ℝ} (hm : Lifting m) (hv : Vectorised m) (hdec : m.decisionName ≠ "EXITED")
    (hw : Uphill m.net.vector m.topology.keys (at' m.traj 0) ∨ Downhill m.net.vector m.topology.keys (at' m.traj 0)) {j : Nat}
    (hj : 2 * m.topology.keys.length < j * m.stabilityDiff) (hmax : (1 + j * m.extraSteps : Int) ≤ m.maxIter) :
    (FCM.runInference true m).1 = .ok () := by
  have hr := hm.clean.reachable
  obtain ⟨x, e0, hx, hrange⟩ := vec_orbit hv.clean.clean hv.args hv.start
  rw [C105_returns hv.clean hv.off hv.nonempty (fun c n f hn hf => (hv.args c n f hn hf).1.kw) hdec e0 hx (not_two hrange)]
  by_contra hno
  push Not at hno
  set w := m.extraSteps with hwe
  have hwpos : 1 ≤ w := hr.inv.extra
  have hsteps : ∀ n, Steps m.net.vector m.topology.keys x n := fun n t _ c hc => hx t c hc
  have hsum := way (n := j * w) (x := x)
    (hw.imp (fun h0 => rises (excitatory_vector hm.excitatory) (origins_vector hr) (hsteps _) e0 h0)
      (fun h0 => falls (excitatory_vector hm.excitatory) (origins_vector hr) (hsteps _) e0 h0))
    (fun t _ c hc => hrange t c hc) (le_refl _)
  have nonneg : ∀ t, ∀ y ∈ m.topology.keys.map (fun c => |x (t + 1) c - x t c|), 0 ≤ y := by
    intro t y hy
    obtain ⟨d, -, rfl⟩ := List.mem_map.1 hy
    exact abs_nonneg _
  have hcnt : ∀ i, i ≤ j → i * m.stabilityDiff ≤ ∑ t ∈ Finset.range (i * w), (m.topology.keys.map fun c => |x (t + 1) c - x t c|).sum := by
    intro i
    induction i with
    | zero => intro _; simp
    | succ i ih =>
      intro hi
      have h3 := ih (by omega)
      have hmul : (i + 1) * w ≤ j * w := Nat.mul_le_mul_right w hi
      rw [Nat.succ_mul] at hmul ⊢
      rw [Finset.sum_range_add]
      have hle : ((1 + (i * w + w) : Nat) : Int) ≤ m.maxIter := by
        have : ((i * w + w : Nat) : Int) ≤ (j * w : Nat) := by exact_mod_cast hmul
        push_cast at this ⊢
        linarith
      obtain ⟨s, s1, s2, s3⟩ := hno (1 + (i * w + w)) hle (by omega)
      unfold Level at s3
      have s3 : m.stabilityDiff ≤ |(m.topology.keys.map (x s)).sum - (m.topology.keys.map (x (s - 1))).sum| := by
        simpa [total_real] using s3
      have h4 : |(m.topology.keys.map (x s)).sum - (m.topology.keys.map (x (s - 1))).sum| ≤
          (m.topology.keys.map fun c => |x (s - 1 + 1) c - x (s - 1) c|).sum := by
        rw [show s - 1 + 1 = s by omega]
        generalize m.topology.keys = l
        induction l with
        | nil => simp
        | cons c l ih =>
          simp only [List.map_cons, List.sum_cons]
          calc _ = |(x s c - x (s - 1) c) + ((l.map (x s)).sum - (l.map (x (s - 1))).sum)| := by congr 1; ring
            _ ≤ _ := (abs_add_le _ _).trans (add_le_add (le_refl _) ih)
      have h5 : (m.topology.keys.map fun c => |x (s - 1 + 1) c - x (s - 1) c|).sum ≤
          ∑ t ∈ Finset.range w, (m.topology.keys.map fun c => |x (i * w + t + 1) c - x (i * w + t) c|).sum := by
        have := Finset.single_le_sum (s := Finset.range w) (a := s - 1 - i * w)
          (f := fun t => (m.topology.keys.map fun c => |x (i * w + t + 1) c - x (i * w + t) c|).sum)
          (fun t _ => List.sum_nonneg (nonneg _)) (Finset.mem_range.2 (by omega))
        rwa [show i * w + (s - 1 - i * w) = s - 1 by omega] at this
      push_cast
      linarith
  have h7 := hcnt j (le_refl _)
  linarith

/-! ### Concrete cases -/

namespace Ex

/-- `FuzzyCognitiveMap(max_it=300, stability_diff=0.1, decision_function='LAST', activation_function='sigmoid')` -/
noncomputable def lift0 : FCM ℝ :=
  match FCM.new (maxIt := 300) (stabilityDiff := dec 1 10) (decision := "LAST") (activation := "sigmoid") with
  | .ok m => m
  | .error _ => default

theorem lift0_new : FCM.new (α := ℝ) (maxIt := 300) (stabilityDiff := dec 1 10) (decision := "LAST") (activation := "sigmoid") =
    .ok lift0 := rfl

noncomputable def liftOps (debug : Bool) : List (Op ℝ) :=
  [.addConcept "a" {}, .addConcept "b" {}, .addRelation "a" "b" 5, .addRelation "b" "a" 7, .assignDebug debug]

/-- a and b excite each other strongly; both start at 0. -/
noncomputable def lift (debug : Bool) : FCM ℝ := runOps (liftOps debug) lift0

theorem lift_clean (debug : Bool) : CleanReachable (lift debug) := by
  cases debug
  · exact cleanReachable_of (.new lift0_new) (liftOps false) rfl
  · exact cleanReachable_of (.new lift0_new) (liftOps true) rfl

theorem lift_keys (debug : Bool) : (lift debug).topology.keys = ["a", "b"] := by cases debug <;> rfl
theorem lift_arcs (debug : Bool) : (lift debug).arcList = [⟨"b", 5, "a"⟩, ⟨"a", 7, "b"⟩] := by cases debug <;> rfl

theorem lift_node (debug : Bool) {c : String} {n : Node ℝ} (h : (lift debug).topology.get? c = some n) :
    n.fn = some ⟨.sigmoid, "sigmoid", []⟩ ∧ n.exec = some (.kosko, "KOSKO") ∧ n.useMem = some true ∧ n.active = true := by
  have hk : c ∈ (lift debug).topology.keys := Dict.mem_keys_of_get? h
  have key : ∀ c, c = "a" ∨ c = "b" → ∃ o, (lift debug).topology.get? c = some o ∧
      o.fn = some ⟨.sigmoid, "sigmoid", []⟩ ∧ o.exec = some (.kosko, "KOSKO") ∧ o.useMem = some true ∧ o.active = true := by
    rintro c (rfl | rfl) <;> cases debug <;> exact ⟨_, rfl, rfl, rfl, rfl, rfl⟩
  rw [lift_keys] at hk
  obtain ⟨o, h1, h2⟩ := key c (by simpa using hk)
  rw [h] at h1
  cases h1
  exact h2

theorem lift_lifting (debug : Bool) : Lifting (lift debug) where
  clean := lift_clean debug
  weights := by
    rw [lift_arcs]
    intro a ha
    simp only [List.mem_cons, List.not_mem_nil, or_false] at ha
    rcases ha with rfl | rfl <;> norm_num
  rising := fun c n f hn hf => by
    rw [(lift_node debug hn).1] at hf
    cases hf
    exact .inl rfl

theorem lift_start (debug : Bool) {c : String} (hc : c ∈ (lift debug).topology.keys) : at' (lift debug).traj 0 c = 0 := by
  rw [lift_keys] at hc
  have hc : c = "a" ∨ c = "b" := by simpa using hc
  have key : at' (lift debug).traj 0 c = lit 0 := by rcases hc with rfl | rfl <;> cases debug <;> rfl
  rw [key]
  simp

/-- Whatever the input, the sigmoid is positive. -/
theorem lift_up (debug : Bool) {N : Net ℝ} (hN : ∀ c ∈ (lift debug).topology.keys, N.concept c =
    some ⟨true, false, true, none, fun x => callActv .sigmoid x []⟩) :
    Uphill N (lift debug).topology.keys (at' (lift debug).traj 0) := by
  intro c hc
  unfold next
  rw [hN c hc, lift_start debug hc]
  simp only [Option.map_some, Option.some.injEq]
  have : ∀ y : ℝ, ∃ v, callActv .sigmoid y [] = .ok v ∧ 0 ≤ v := fun y => by
    refine ⟨_, sigmoid_real _ _, ?_⟩
    positivity
  exact this _

theorem lift_concept (debug : Bool) {c : String} (hc : c ∈ (lift debug).topology.keys) : (lift debug).net.concept c =
    some ⟨true, false, true, none, fun x => callActv .sigmoid x []⟩ := by
  obtain ⟨n, hn⟩ := Dict.exists_get?_of_mem hc
  obtain ⟨h1, h2, h3, h4⟩ := lift_node debug hn
  rw [concept_node hn, toSpec_of h1 h2 h3, h4]
  rfl

theorem lift_diff (debug : Bool) : (lift debug).stabilityDiff = 1/10 := by
  have : (lift debug).stabilityDiff = dec 1 10 := by cases debug <;> rfl
  rw [this]
  norm_num [dec]

theorem lift_range (debug : Bool) : ∀ c ∈ (lift debug).topology.keys, -1 ≤ at' (lift debug).traj 0 c ∧ at' (lift debug).traj 0 c ≤ 1 := by
  intro c hc
  rw [lift_start debug hc]
  norm_num

/-- The iterative engine records at most 166 states, and b never falls. -/
example : ∃ m', FCM.runInference true (lift true) = (.ok (), m') ∧ m'.iterations ≤ 166 ∧
    ∀ t, t + 1 < m'.iterations → at' m'.traj t "b" ≤ at' m'.traj (t + 1) "b" := by
  have hup := lift_up true (fun _ hc => lift_concept true hc)
  obtain ⟨m', h⟩ : ∃ m', FCM.runInference true (lift true) = (.ok (), m') := C75_succeeds (lift_clean true) rfl (fun c n f hn hf => by
    rw [(lift_node true hn).1] at hf
    cases hf
    exact ⟨.inl rfl, fun h => absurd h (by decide)⟩) (by exact by decide)
  refine ⟨m', h, ?_, (C127_way (lift_lifting true) rfl h).1 hup "b" (by rw [lift_keys]; simp)⟩
  have := C127_stops (lift_lifting true) rfl h (lift_range true) (.inl hup) rfl (by rw [lift_diff]; norm_num)
  rw [lift_keys, lift_diff, show (lift true).extraSteps = 5 from rfl] at this
  have : (m'.iterations : ℝ) ≤ 166 := by
    norm_num at this ⊢
    linarith
  exact_mod_cast this

theorem lift_vectorised : Vectorised (lift false) where
  clean := lift_clean false
  off := rfl
  nonempty := fun e => by
    have := lift_keys false
    rw [e] at this
    cases this
  args := (lift_lifting false).args
  start := lift_range false

/-- The vectorised engine returns: 41 windows of five steps fit in 300 iterations. -/
example : (FCM.runInference true (lift false)).1 = .ok () := by
  refine C127_vector_returns (j := 41) (lift_lifting false) lift_vectorised (by exact by decide) (.inl (lift_up false fun c hc => ?_)) ?_ ?_
  · show ((lift false).net.concept c).map _ = _
    rw [lift_concept false hc]
    rfl
  · rw [lift_keys, lift_diff]
    norm_num
  · exact by decide

/-- Runs that start neither way need not settle: in `swap` all relations excite and all functions rise, a starts at 1 and b at 0. -/
theorem C127_swap : (∀ a ∈ (swap true).arcList, 0 ≤ a.weight) ∧ ¬ Rests (FCM.runInference true (swap true)).2.traj (swap true).topology.keys 20 := by
  unfold Rests
  decide +kernel

end Ex

end PyFCM
