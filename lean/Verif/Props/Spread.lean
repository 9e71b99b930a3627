import Verif.Props.Cycles
import Mathlib.Data.Finset.Card
/-
C121: maps of two-valued concepts without inhibition compute reachability.
-/
namespace PyFCM
open Arith Spec

/-! ### Specification -/

/-- There is a walk of `k` steps of `R` from `d` to `c`. -/
inductive Spec.Walk (R : String → String → Prop) : Nat → String → String → Prop
  | here (d) : Walk R 0 d d
  | step {k d e c} : Walk R k d e → R e c → Walk R (k + 1) d c

/-- `d` passes activation on to `c`: it is active and there is a relation of positive weight. -/
def Passes (m : FCM ℝ) (d c : String) : Prop :=
  ∃ a ∈ m.arcList, a.origin = d ∧ a.dest = c ∧ 0 < a.weight ∧ ∃ n, m.topology.get? d = some n ∧ n.active = true

/-- The concept remembers its value. -/
def Keeps (m : FCM ℝ) (c : String) : Prop := ∃ n, m.topology.get? c = some n ∧ n.useMem = some true

/-- For the vectorised engine: the last relation from `d` to `c` has a positive weight. -/
def PassesLast (m : FCM ℝ) (d c : String) : Prop :=
  ∃ r ∈ latest (m.arcList.map Arc.toSpec), r.origin = d ∧ r.dest = c ∧ 0 < r.weight

/-- All concepts are two-valued, none is rescaled, and no relation inhibits. -/
structure Spreading (m : FCM ℝ) : Prop where
  weights : ∀ a ∈ m.arcList, 0 ≤ a.weight
  concepts : ∀ c n, m.topology.get? c = some n → (∃ f, n.fn = some f ∧ f.name = "biestate") ∧
    ∀ ex, n.exec = some ex → ex.2 = "KOSKO"

/-! ### Networks -/

theorem sum_pos_iff_nonneg {xs : List ℝ} (h : ∀ x ∈ xs, 0 ≤ x) : 0 ≤ xs.sum ∧ (0 < xs.sum ↔ ∃ x ∈ xs, 0 < x) := by
  induction xs with
  | nil => simp
  | cons x xs ih =>
    have hx := h x (by simp)
    obtain ⟨h1, h2⟩ := ih fun y hy => h y (by simp [hy])
    refine ⟨by simp; linarith, ?_⟩
    rw [List.sum_cons]
    constructor
    · intro hp
      by_cases hx0 : 0 < x
      · exact ⟨x, by simp, hx0⟩
      · obtain ⟨y, hy, hy0⟩ := h2.1 (by linarith)
        exact ⟨y, by simp [hy], hy0⟩
    · rintro ⟨y, hy, hy0⟩
      rcases List.mem_cons.1 hy with rfl | hy
      · linarith
      · have := h2.2 ⟨y, hy, hy0⟩
        linarith

/-- What `Spreading` says of a network. -/
structure SpreadNet (N : Net ℝ) (cs : List String) : Prop where
  origins : ∀ r ∈ N.rels, r.origin ∈ cs
  weights : ∀ r ∈ N.rels, 0 ≤ r.weight
  concepts : ∀ c k, N.concept c = some k → k.rescale = false ∧ k.divisor = none ∧
    ∀ x v, k.act x = .ok v → v = if x ≤ 0 then 0 else 1

/-- What makes `c` positive in the next step. -/
def Feed (N : Net ℝ) (d c : String) : Prop :=
  (d = c ∧ ∃ k, N.concept c = some k ∧ k.memory = true) ∨
  ∃ r ∈ N.rels, r.origin = d ∧ r.dest = c ∧ 0 < r.weight ∧ ∃ o, N.concept d = some o ∧ o.active = true

theorem Feed.mem {N : Net ℝ} {cs : List String} (hN : SpreadNet N cs) {d c : String} (h : Feed N d c) (hc : c ∈ cs) : d ∈ cs := by
  rcases h with ⟨rfl, -⟩ | ⟨r, hr, rfl, -⟩
  · exact hc
  · exact hN.origins r hr

theorem spread_next {N : Net ℝ} {cs : List String} (hN : SpreadNet N cs) {A : String → ℝ} (hA : ∀ c ∈ cs, 0 ≤ A c)
    {c : String} (hc : c ∈ cs) {v : ℝ} (h : next N A c = some (.ok v)) :
    (v = 0 ∨ v = 1) ∧ (0 < v ↔ ∃ d, Feed N d c ∧ 0 < A d) := by
  unfold next at h
  obtain ⟨k, hk, h⟩ := Option.map_eq_some_iff.1 h
  obtain ⟨h1, h2, h3⟩ := hN.concepts c k hk
  simp only [h2] at h
  have hv := h3 _ _ h
  have hin : ∀ x ∈ inputs N A c, 0 ≤ x := by
    intro x hx
    obtain ⟨r, hr, hal⟩ := List.mem_filterMap.1 hx
    unfold along at hal
    split at hal
    · split at hal
      · rename_i o ho
        split at hal
        · cases hal
          unfold source
          rw [(hN.concepts _ _ ho).1]
          exact mul_nonneg (hA _ (hN.origins r hr)) (hN.weights r hr)
        · cases hal
      · cases hal
    · cases hal
  have hpos : (∃ x ∈ inputs N A c, 0 < x) ↔ ∃ r ∈ N.rels, r.dest = c ∧ 0 < r.weight ∧ 0 < A r.origin ∧
      ∃ o, N.concept r.origin = some o ∧ o.active = true := by
    constructor
    · rintro ⟨x, hx, hx0⟩
      obtain ⟨r, hr, hal⟩ := List.mem_filterMap.1 hx
      unfold along at hal
      split at hal
      · rename_i hd
        split at hal
        · rename_i o ho
          split at hal
          · rename_i ha
            cases hal
            unfold source at hx0
            rw [(hN.concepts _ _ ho).1] at hx0
            simp only [Bool.false_eq_true, if_false] at hx0
            have hw := hN.weights r hr
            have hAo := hA _ (hN.origins r hr)
            refine ⟨r, hr, hd, ?_, ?_, o, ho, ha⟩
            · rcases hw.lt_or_eq with hlt | heq
              · exact hlt
              · rw [← heq, mul_zero] at hx0
                exact absurd hx0 (lt_irrefl _)
            · rcases hAo.lt_or_eq with hlt | heq
              · exact hlt
              · rw [← heq, zero_mul] at hx0
                exact absurd hx0 (lt_irrefl _)
          · cases hal
        · cases hal
      · cases hal
    · rintro ⟨r, hr, hd, hw, hAr, o, ho, ha⟩
      refine ⟨A r.origin * r.weight, List.mem_filterMap.2 ⟨r, hr, ?_⟩, mul_pos hAr hw⟩
      unfold along source
      rw [if_pos hd, ho]
      simp [ha, (hN.concepts _ _ ho).1]
  obtain ⟨s0, s1⟩ := sum_pos_iff_nonneg hin
  rw [total_real] at hv
  unfold source at hv
  rw [h1] at hv
  simp only [Bool.false_eq_true, if_false] at hv
  have hfeed : (∃ d, Feed N d c ∧ 0 < A d) ↔ (k.memory = true ∧ 0 < A c) ∨ 0 < (inputs N A c).sum := by
    rw [s1, hpos]
    constructor
    · rintro ⟨d, ⟨rfl, k', hk', hm⟩ | ⟨r, hr, rfl, hd, hw, ho⟩, hp⟩
      · rw [hk] at hk'
        cases hk'
        exact Or.inl ⟨hm, hp⟩
      · exact Or.inr ⟨r, hr, hd, hw, hp, ho⟩
    · rintro (⟨hm, hp⟩ | ⟨r, hr, hd, hw, hp, ho⟩)
      · exact ⟨c, Or.inl ⟨rfl, k, hk, hm⟩, hp⟩
      · exact ⟨r.origin, Or.inr ⟨r, hr, rfl, hd, hw, ho⟩, hp⟩
  have hAc := hA c hc
  rw [hfeed]
  by_cases hm : k.memory = true
  · rw [if_pos hm] at hv
    split at hv
    · rename_i hle
      refine ⟨Or.inl hv, ?_⟩
      rw [hv]
      refine ⟨fun hlt => absurd hlt (lt_irrefl _), ?_⟩
      rintro (⟨-, hp⟩ | hp) <;> linarith
    · rename_i hle
      refine ⟨Or.inr hv, ?_⟩
      rw [hv]
      refine ⟨fun _ => ?_, fun _ => one_pos⟩
      by_contra hcon
      push Not at hcon
      have := hcon.1 hm
      exact hle (by linarith [hcon.2])
  · rw [if_neg hm] at hv
    split at hv
    · rename_i hle
      refine ⟨Or.inl hv, ?_⟩
      rw [hv]
      refine ⟨fun hlt => absurd hlt (lt_irrefl _), ?_⟩
      rintro (⟨hm', -⟩ | hp)
      · exact absurd hm' hm
      · linarith
    · rename_i hle
      refine ⟨Or.inr hv, ?_⟩
      rw [hv]
      exact ⟨fun _ => Or.inr (not_le.1 hle), fun _ => one_pos⟩

/-- `x` is positive at `c` after `t` steps exactly if a walk of `t` steps leads to `c` from a concept positive at the
beginning. -/
theorem spread_run {N : Net ℝ} {cs : List String} (hN : SpreadNet N cs) {x : Nat → String → ℝ} {len : Nat}
    (hx : ∀ t, t + 1 < len → ∀ c ∈ cs, next N (x t) c = some (.ok (x (t + 1) c))) (h0 : ∀ c ∈ cs, 0 ≤ x 0 c) :
    ∀ t, t < len → ∀ c ∈ cs, (1 ≤ t → x t c = 0 ∨ x t c = 1) ∧ 0 ≤ x t c ∧
      (0 < x t c ↔ ∃ d ∈ cs, 0 < x 0 d ∧ Walk (Feed N) t d c) := by
  intro t
  induction t with
  | zero =>
    intro _ c hc
    refine ⟨fun h => absurd h (by omega), h0 c hc, fun hp => ⟨c, hc, hp, .here c⟩, ?_⟩
    rintro ⟨d, -, hd, hw⟩
    cases hw
    exact hd
  | succ t ih =>
    intro ht c hc
    have ih := ih (by omega)
    obtain ⟨h1, h2⟩ := spread_next hN (fun c hc => (ih c hc).2.1) hc (hx t ht c hc)
    refine ⟨fun _ => h1, by rcases h1 with h1 | h1 <;> simp [h1], ?_⟩
    rw [h2]
    constructor
    · rintro ⟨e, hf, he⟩
      obtain ⟨d, hd, hp, hw⟩ := (ih e (hf.mem hN hc)).2.2.1 he
      exact ⟨d, hd, hp, .step hw hf⟩
    · rintro ⟨d, hd, hp, hw⟩
      cases hw with
      | step hw hf => exact ⟨_, hf, (ih _ (hf.mem hN hc)).2.2.2 ⟨d, hd, hp, hw⟩⟩

/-! ### How long it takes -/

/-- If a growing set each state of which determines the next does not grow in one step, it grows no more. -/
theorem stays {cs : List String} {P : Nat → String → Prop} (hmono : ∀ t c, P t c → P (t + 1) c)
    (hdet : ∀ t, (∀ c ∈ cs, P (t + 1) c → P t c) → ∀ c ∈ cs, P (t + 2) c → P (t + 1) c) {a : Nat}
    (h : ∀ c ∈ cs, P (a + 1) c → P a c) : ∀ t, ∀ c ∈ cs, P t c → P a c := by
  have hst : ∀ s, ∀ c ∈ cs, P (a + s + 1) c → P (a + s) c := by
    intro s
    induction s with
    | zero => exact h
    | succ s ih => exact hdet (a + s) ih
  have hback : ∀ s, ∀ c ∈ cs, P (a + s) c → P a c := by
    intro s
    induction s with
    | zero => exact fun _ _ hp => hp
    | succ s ih => exact fun c hc hp => ih c hc (hst s c hc hp)
  have hup : ∀ s t c, P t c → P (t + s) c := by
    intro s
    induction s with
    | zero => exact fun _ _ hp => hp
    | succ s ih => exact fun t c hp => hmono _ _ (ih t c hp)
  intro t c hc hp
  by_cases hta : t ≤ a
  · have := hup (a - t) t c hp
    rwa [show t + (a - t) = a by omega] at this
  · apply hback (t - a) c hc
    rwa [show a + (t - a) = t by omega]

/-- A growing set of concepts each state of which determines the next stops growing after as many steps as there are
concepts. -/
theorem grows_until {cs : List String} {P : Nat → String → Prop} (hmono : ∀ t c, P t c → P (t + 1) c)
    (hdet : ∀ t, (∀ c ∈ cs, P (t + 1) c → P t c) → ∀ c ∈ cs, P (t + 2) c → P (t + 1) c) :
    ∃ a ≤ cs.length, ∀ t, ∀ c ∈ cs, P t c → P a c := by
  classical
  have key : ∀ t, (∃ a < t, ∀ c ∈ cs, P (a + 1) c → P a c) ∨ t ≤ (cs.toFinset.filter (P t)).card := by
    intro t
    induction t with
    | zero => exact Or.inr (Nat.zero_le _)
    | succ t ih =>
      rcases ih with ⟨a, ha, h⟩ | h
      · exact Or.inl ⟨a, by omega, h⟩
      · by_cases hs : ∀ c ∈ cs, P (t + 1) c → P t c
        · exact Or.inl ⟨t, by omega, hs⟩
        · right
          push Not at hs
          obtain ⟨c, hc, h1, h2⟩ := hs
          refine Nat.lt_of_le_of_lt h (Finset.card_lt_card ?_)
          refine Finset.ssubset_iff_subset_ne.2 ⟨fun d hd => ?_, fun e => ?_⟩
          · obtain ⟨a, b⟩ := Finset.mem_filter.1 hd
            exact Finset.mem_filter.2 ⟨a, hmono t d b⟩
          · have : c ∈ cs.toFinset.filter (P (t + 1)) := Finset.mem_filter.2 ⟨List.mem_toFinset.2 hc, h1⟩
            rw [← e] at this
            exact h2 (Finset.mem_filter.1 this).2
  obtain ⟨a, ha, h⟩ : ∃ a ≤ cs.length, ∀ c ∈ cs, P (a + 1) c → P a c := by
    rcases key (cs.length + 1) with ⟨a, ha, h⟩ | h
    · exact ⟨a, by omega, h⟩
    · have h1 := Finset.card_filter_le cs.toFinset (P (cs.length + 1))
      have h2 := List.toFinset_card_le cs
      omega
  exact ⟨a, ha, stays hmono hdet h⟩

/-! ### Maps -/

theorem whole {m : FCM ℝ} (hm : CleanReachable m) {c : String} {n : Node ℝ} (hn : m.topology.get? c = some n) :
    ∃ f ex um, n.fn = some f ∧ n.exec = some ex ∧ n.useMem = some um := by
  have hg := (hm.clean.good c n hn).full
  obtain ⟨f, hf⟩ := Option.isSome_iff_exists.1 hg.fn
  obtain ⟨ex, he⟩ := Option.isSome_iff_exists.1 hg.exec
  obtain ⟨um, hu⟩ := Option.isSome_iff_exists.1 hg.useMem
  exact ⟨f, ex, um, hf, he, hu⟩

theorem spreadNet_of {m : FCM ℝ} (hm : CleanReachable m) (hs : Spreading m) : SpreadNet m.net m.topology.keys := by
  refine ⟨origins hm.reachable, fun r hr => ?_, fun c k hk => ?_⟩
  · obtain ⟨a, ha, rfl⟩ := List.mem_map.1 hr
    exact hs.weights a ha
  · obtain ⟨n, hn, ht⟩ := Option.bind_eq_some_iff.1 (show (m.topology.get? c).bind Node.toSpec = some k from hk)
    obtain ⟨f, ex, um, hf, he, hu⟩ := whole hm hn
    rw [toSpec_of hf he hu] at ht
    obtain ⟨⟨f', hf', hname⟩, hex⟩ := hs.concepts c n hn
    rw [hf] at hf'
    cases hf'
    cases ht
    refine ⟨by simp [hex ex he], by simp [hname], fun x v hv => ?_⟩
    have hok : Activation.getFunctionByName f.name = some f.fn := (hm.clean.inv.nodes c n hn).fn f hf
    rw [hname] at hok
    have hok := (Option.some.inj hok).symm
    simp only [hok] at hv
    unfold callActv at hv
    simp only at hv
    split at hv <;> cases hv
    unfold bistate
    simp

theorem spreadNet_vector {N : Net ℝ} {cs : List String} (h : SpreadNet N cs) : SpreadNet N.vector cs := by
  refine ⟨fun r hr => h.origins r ((latest_sublist _).subset hr), fun r hr => h.weights r ((latest_sublist _).subset hr),
    fun c k hk => ?_⟩
  obtain ⟨k0, h1, rfl⟩ := Option.map_eq_some_iff.1 hk
  obtain ⟨a, b, d⟩ := h.concepts c k0 h1
  exact ⟨a, by simp [Concept.vector, b], d⟩

theorem concept_of {m : FCM ℝ} (hm : CleanReachable m) {c : String} {n : Node ℝ} (hn : m.topology.get? c = some n) :
    ∃ k, m.net.concept c = some k ∧ k.active = n.active ∧ (k.memory = true ↔ n.useMem = some true) := by
  obtain ⟨f, ex, um, hf, he, hu⟩ := whole hm hn
  have hk : m.net.concept c = n.toSpec := by
    show (m.topology.get? c).bind _ = _
    rw [hn]
    rfl
  rw [toSpec_of hf he hu] at hk
  exact ⟨_, hk, rfl, by simp [hu]⟩

theorem feed_iff {m : FCM ℝ} (hm : CleanReachable m) {d c : String} :
    Feed m.net d c ↔ Passes m d c ∨ d = c ∧ Keeps m c := by
  have hget : ∀ c k, m.net.concept c = some k → ∃ n, m.topology.get? c = some n := fun c k hk => by
    obtain ⟨n, hn, -⟩ := Option.bind_eq_some_iff.1 (show (m.topology.get? c).bind Node.toSpec = some k from hk)
    exact ⟨n, hn⟩
  constructor
  · rintro (⟨rfl, k, hk, hmem⟩ | ⟨r, hr, ho, hd, hw, o, hk, hact⟩)
    · obtain ⟨n, hn⟩ := hget _ _ hk
      obtain ⟨k', hk', -, h2⟩ := concept_of hm hn
      rw [hk] at hk'
      cases hk'
      exact Or.inr ⟨rfl, n, hn, h2.1 hmem⟩
    · obtain ⟨n, hn⟩ := hget _ _ hk
      obtain ⟨k', hk', h1, -⟩ := concept_of hm hn
      rw [hk] at hk'
      cases hk'
      obtain ⟨a, ha, rfl⟩ := List.mem_map.1 hr
      exact Or.inl ⟨a, ha, ho, hd, hw, n, hn, by rw [← h1]; exact hact⟩
  · rintro (⟨a, ha, ho, hd, hw, n, hn, hact⟩ | ⟨rfl, n, hn, hmem⟩)
    · obtain ⟨k, hk, h1, -⟩ := concept_of hm hn
      exact Or.inr ⟨a.toSpec, List.mem_map.2 ⟨a, ha, rfl⟩, ho, hd, hw, k, hk, by rw [h1]; exact hact⟩
    · obtain ⟨k, hk, -, h2⟩ := concept_of hm hn
      exact Or.inl ⟨rfl, k, hk, h2.2 hmem⟩

theorem feed_vector_iff {m : FCM ℝ} (hm : CleanReachable m) {d c : String} :
    Feed m.net.vector d c ↔ PassesLast m d c ∨ d = c ∧ Keeps m c := by
  constructor
  · rintro (⟨rfl, k, hk, hmem⟩ | ⟨r, hr, ho, hd, hw, -⟩)
    · obtain ⟨k0, hk0, rfl⟩ := Option.map_eq_some_iff.1 hk
      obtain h | h := (feed_iff hm (d := d) (c := d)).1 (Or.inl ⟨rfl, k0, hk0, hmem⟩)
      · obtain ⟨a, -, -, -, -, n, hn, -⟩ := h
        obtain ⟨k', hk', -, h2⟩ := concept_of hm hn
        rw [hk0] at hk'
        cases hk'
        exact Or.inr ⟨rfl, n, hn, h2.1 hmem⟩
      · exact Or.inr h
    · exact Or.inl ⟨r, hr, ho, hd, hw⟩
  · rintro (⟨r, hr, ho, hd, hw⟩ | ⟨rfl, n, hn, hmem⟩)
    · have hmem : d ∈ m.topology.keys := by
        rw [← ho]
        exact origins_vector hm.reachable r hr
      obtain ⟨n, hn⟩ := Dict.exists_get?_of_mem hmem
      obtain ⟨k, hk, -, -⟩ := concept_of hm hn
      refine Or.inr ⟨r, hr, ho, hd, hw, k.vector, ?_, rfl⟩
      show (m.net.concept d).map _ = _
      rw [hk]
      rfl
    · obtain ⟨k, hk, -, h2⟩ := concept_of hm hn
      refine Or.inl ⟨rfl, k.vector, ?_, h2.2 hmem⟩
      show (m.net.concept d).map _ = _
      rw [hk]
      rfl

theorem Walk.congr {R S : String → String → Prop} (h : ∀ d c, R d c ↔ S d c) {k : Nat} {d c : String} :
    Walk R k d c ↔ Walk S k d c := by
  have e : R = S := funext fun d => funext fun c => propext (h d c)
  rw [e]

/-- Waiting at a concept shortens a walk: with memory everywhere, walks of `t` steps are walks of at most `t` proper
steps. -/
theorem walk_wait {R : String → String → Prop} {K : String → Prop} {cs : List String} (hR : ∀ d c, R d c → c ∈ cs)
    (hK : ∀ c ∈ cs, K c) {t : Nat} {d c : String} (hd : d ∈ cs) :
    Walk (fun e c => R e c ∨ e = c ∧ K c) t d c ↔ ∃ k ≤ t, Walk R k d c := by
  constructor
  · intro h
    clear hd
    induction h with
    | here d => exact ⟨0, Nat.le_refl _, .here d⟩
    | step _ hs ih =>
      obtain ⟨k, hk, hw⟩ := ih
      rcases hs with hs | ⟨rfl, -⟩
      · exact ⟨k + 1, by omega, .step hw hs⟩
      · exact ⟨k, by omega, hw⟩
  · rintro ⟨k, hk, hw⟩
    have hmem : c ∈ cs := by
      cases hw with
      | here => exact hd
      | step _ hs => exact hR _ _ hs
    have hw' : Walk (fun e c => R e c ∨ e = c ∧ K c) k d c := by
      clear hk hd hmem
      induction hw with
      | here d => exact .here d
      | step _ hs ih => exact .step ih (Or.inl hs)
    obtain ⟨j, rfl⟩ : ∃ j, t = k + j := ⟨t - k, by omega⟩
    clear hk
    induction j with
    | zero => exact hw'
    | succ j ih => exact .step ih (Or.inr ⟨rfl, hK c hmem⟩)

/-! ### C121 -/

/-- C121: a concept is positive (and then 1) at step `t` of the iterative engine exactly if a walk of `t` steps leads to it
from a concept that was positive at the beginning, where a step is a positive relation of an active concept or, at a
concept with memory, waiting. -/
theorem C121_walks {m m' : FCM ℝ} (hm : CleanReachable m) (hd : m.debug = true) (hs : Spreading m)
    (h0 : ∀ c ∈ m.topology.keys, 0 ≤ at' m.traj 0 c) (h : FCM.runInference true m = (.ok (), m')) {t : Nat}
    (ht : t < m'.iterations) {c : String} (hc : c ∈ m.topology.keys) :
    (1 ≤ t → at' m'.traj t c = 0 ∨ at' m'.traj t c = 1) ∧ (0 < at' m'.traj t c ↔ ∃ d ∈ m.topology.keys, 0 < at' m.traj 0 d ∧
      Walk (fun e c => Passes m e c ∨ e = c ∧ Keeps m c) t d c) := by
  obtain ⟨len, hi⟩ := run_iter hm.clean.inv hd h
  rw [hi.iters] at ht
  obtain ⟨h1, -, h3⟩ := spread_run (spreadNet_of hm hs) (x := at' m'.traj) (len := len)
    (fun t ht c hc => (hi.run c hc).2 t ht) (fun c hc => by rw [(hi.init c hc).2]; exact h0 c hc) t ht c hc
  refine ⟨h1, h3.trans ?_⟩
  refine exists_congr fun d => and_congr_right fun hdk => ?_
  rw [(hi.init d hdk).2, Walk.congr fun d c => feed_iff hm]

/-- C121: if all concepts have memory, exactly the concepts are positive at step `t` that a path of at most `t` positive
relations of active concepts reaches. -/
theorem C121_paths {m m' : FCM ℝ} (hm : CleanReachable m) (hd : m.debug = true) (hs : Spreading m)
    (hk : ∀ c ∈ m.topology.keys, Keeps m c)
    (h0 : ∀ c ∈ m.topology.keys, 0 ≤ at' m.traj 0 c) (h : FCM.runInference true m = (.ok (), m')) {t : Nat}
    (ht : t < m'.iterations) {c : String} (hc : c ∈ m.topology.keys) :
    0 < at' m'.traj t c ↔ ∃ d ∈ m.topology.keys, 0 < at' m.traj 0 d ∧ ∃ k ≤ t, Walk (Passes m) k d c := by
  rw [(C121_walks hm hd hs h0 h ht hc).2]
  refine exists_congr fun d => and_congr_right fun hdk => and_congr_right fun _ => ?_
  refine walk_wait (cs := m.topology.keys) (fun d c h => ?_) hk hdk
  obtain ⟨a, ha, -, rfl, -⟩ := h
  exact (hm.clean.inv.ends a ha).2

/-- `c` is reached from a concept with the property `on` in at most `t` steps. -/
def Reached (R : String → String → Prop) (cs : List String) (on : String → Prop) (t : Nat) (c : String) : Prop :=
  ∃ d ∈ cs, on d ∧ ∃ k ≤ t, Walk R k d c

theorem within_mono {R : String → String → Prop} {cs : List String} {on : String → Prop} (t : Nat) (c : String)
    (h : Reached R cs on t c) : Reached R cs on (t + 1) c := by
  obtain ⟨d, hd, hon, k, hk, hw⟩ := h
  exact ⟨d, hd, hon, k, by omega, hw⟩

theorem within_det {R : String → String → Prop} {cs : List String} (hR : ∀ d c, R d c → d ∈ cs) {on : String → Prop} (t : Nat)
    (hst : ∀ c ∈ cs, Reached R cs on (t + 1) c → Reached R cs on t c) :
    ∀ c ∈ cs, Reached R cs on (t + 2) c → Reached R cs on (t + 1) c := by
  rintro c hc ⟨d, hd, hon, k, hk, hw⟩
  by_cases hk1 : k ≤ t + 1
  · exact ⟨d, hd, hon, k, hk1, hw⟩
  · cases hw with
    | here => omega
    | step hw hs =>
      obtain ⟨d', hd', hon', k', hk', hw'⟩ := hst _ (hR _ _ hs) ⟨d, hd, hon, _, by omega, hw⟩
      exact ⟨d', hd', hon', k' + 1, by omega, .step hw' hs⟩

/-- After as many steps as there are concepts, or after a step without change, all that can be reached is reached. -/
theorem within_done {R : String → String → Prop} {cs : List String} (hR : ∀ d c, R d c → d ∈ cs) {on : String → Prop} {b : Nat}
    (hb : cs.length ≤ b ∨ ∀ c ∈ cs, Reached R cs on (b + 1) c → Reached R cs on b c) {i : Nat} (hi : b ≤ i) {c : String}
    (hc : c ∈ cs) : Reached R cs on i c ↔ ∃ d ∈ cs, on d ∧ ∃ k, Walk R k d c := by
  constructor
  · rintro ⟨d, hd, hon, k, -, hw⟩
    exact ⟨d, hd, hon, k, hw⟩
  · rintro ⟨d, hd, hon, k, hw⟩
    have hk : Reached R cs on k c := ⟨d, hd, hon, k, Nat.le_refl _, hw⟩
    rcases hb with hb | hb
    · obtain ⟨a, ha, h⟩ := grows_until (cs := cs) (P := Reached R cs on) within_mono (within_det hR)
      obtain ⟨d, hd, hon, k, hk, hw⟩ := h k c hc hk
      exact ⟨d, hd, hon, k, by omega, hw⟩
    · obtain ⟨d, hd, hon, k, hk, hw⟩ := stays (P := Reached R cs on) within_mono (within_det hR) hb k c hc hk
      exact ⟨d, hd, hon, k, by omega, hw⟩

/-- The value LAST decides on. -/
theorem last_at {traj : String → List ℝ} {c : String} {len extra : Nat} (hlen : (traj c).length = len)
    {v : ℝ} (hv : decideBy "LAST" (traj c) extra = some v) :
    v = at' traj (if extra + 1 < len then len - extra - 1 else len - 1) c := by
  unfold decideBy decideLast at hv
  rw [if_pos rfl, hlen] at hv
  unfold at'
  split at hv
  · rename_i h
    rw [if_pos h, List.getD_eq_getElem?_getD, hv]
    rfl
  · rename_i h
    rw [if_neg h, List.getD_eq_getElem?_getD, hv]
    rfl

open Classical in
/-- C121: with memory everywhere, start values 0 or 1, the decision function LAST, a stability difference below 1, at least
two extra steps and a limit above the number of concepts, `run_inference` returns and decides for every concept: 1 if a
path of positive relations of active concepts leads to it from a concept that started at 1, and 0 otherwise. -/
theorem C121_final {m : FCM ℝ} (hm : CleanReachable m) (hd : m.debug = true) (hs : Spreading m)
    (hargs : ∀ c n f, m.topology.get? c = some n → n.fn = some f → f.args = [])
    (hk : ∀ c ∈ m.topology.keys, Keeps m c) (h0 : ∀ c ∈ m.topology.keys, at' m.traj 0 c = 0 ∨ at' m.traj 0 c = 1)
    (hdec : m.decisionName = "LAST") (hdiff : 0 ≤ m.stabilityDiff ∧ m.stabilityDiff < 1) (hx : 2 ≤ m.extraSteps)
    (hmax : (m.topology.keys.length : Int) + 2 ≤ m.maxIter) :
    ∃ m', FCM.runInference true m = (.ok (), m') ∧ ∀ c ∈ m.topology.keys, m'.getConceptValue c =
      some (if ∃ d ∈ m.topology.keys, at' m.traj 0 d = 1 ∧ ∃ k, Walk (Passes m) k d c then 1 else 0) := by
  have hfn : ∀ c n f, m.topology.get? c = some n → n.fn = some f → f.fn = .bistate ∧ f.name = "biestate" := by
    intro c n f hn hf
    obtain ⟨⟨f', hf', hname⟩, -⟩ := hs.concepts c n hn
    rw [hf] at hf'
    cases hf'
    have hok : Activation.getFunctionByName f.name = some f.fn := (hm.clean.inv.nodes c n hn).fn f hf
    rw [hname] at hok
    exact ⟨(Option.some.inj hok).symm, hname⟩
  obtain ⟨m', h⟩ := C75_succeeds hm hd (fun c n f hn hf => ⟨by
      unfold ProperArgs
      rw [(hfn c n f hn hf).1]
      exact hargs c n f hn hf, fun hz => by rw [(hfn c n f hn hf).2] at hz; exact absurd hz (by decide)⟩)
    (by rw [hdec]; decide)
  refine ⟨m', h, fun c hc => ?_⟩
  obtain ⟨v, hv, hdv⟩ := C08_final_value hm.reachable h hc
  rw [hv, Option.some.injEq]
  rw [hdec] at hdv
  obtain ⟨len, hi⟩ := run_iter hm.clean.inv hd h
  have hnn : ∀ c ∈ m.topology.keys, 0 ≤ at' m.traj 0 c := fun c hc => by
    rcases h0 c hc with e | e <;> simp [e]
  have hon : ∀ d ∈ m.topology.keys, (0 < at' m.traj 0 d ↔ at' m.traj 0 d = 1) := fun d hd => by
    rcases h0 d hd with e | e <;> simp [e]
  have hab := hi.stops.above
  have hpath : ∀ t, t < len → ∀ c ∈ m.topology.keys, (0 < at' m'.traj t c ↔
      Reached (Passes m) m.topology.keys (fun d => at' m.traj 0 d = 1) t c) := by
    intro t ht c hc
    rw [C121_paths hm hd hs hk hnn h (by rw [hi.iters]; exact ht) hc]
    exact exists_congr fun d => and_congr_right fun hd => by rw [hon d hd]
  have h01 : ∀ t, t < len → ∀ c ∈ m.topology.keys, at' m'.traj t c = 0 ∨ at' m'.traj t c = 1 := by
    intro t ht c hc
    by_cases h1 : 1 ≤ t
    · exact (C121_walks hm hd hs hnn h (by rw [hi.iters]; exact ht) hc).1 h1
    · rw [show t = 0 by omega, (hi.init c hc).2]
      exact h0 c hc
  have hR : ∀ d c, Passes m d c → d ∈ m.topology.keys := by
    rintro d c ⟨a, ha, rfl, -⟩
    exact (hm.clean.inv.ends a ha).1
  rw [last_at (hi.run c hc).1 hdv]
  have hquiet := hi.stops.window (len - (m.extraSteps - 1)) (Nat.le_refl _) (by omega)
  have hlen2 : m.extraSteps < len := by
    rcases hquiet with h1 | ⟨-, h1, -⟩ <;> omega
  set i := if m.extraSteps + 1 < len then len - m.extraSteps - 1 else len - 1 with hidef
  have hil : i < len := by split at hidef <;> omega
  have hib : len - m.extraSteps - 1 ≤ i := by split at hidef <;> omega
  have hdone : m.topology.keys.length ≤ len - m.extraSteps - 1 ∨ ∀ c ∈ m.topology.keys,
      Reached (Passes m) m.topology.keys (fun d => at' m.traj 0 d = 1) (len - m.extraSteps - 1 + 1) c →
      Reached (Passes m) m.topology.keys (fun d => at' m.traj 0 d = 1) (len - m.extraSteps - 1) c := by
    rcases hquiet with h1 | ⟨-, h1, h2⟩
    · left; omega
    · right
      intro c hc hw
      rw [← hpath _ (by omega) c hc] at hw ⊢
      have hcalm := h2 c hc
      rw [← Bool.not_eq_true, real_lt, real_abs, show len - (m.extraSteps - 1) - 1 = len - m.extraSteps - 1 + 1 by omega,
        show len - (m.extraSteps - 1) - 2 = len - m.extraSteps - 1 by omega] at hcalm
      rcases h01 (len - m.extraSteps - 1) (by omega) c hc with e | e
      · rcases h01 (len - m.extraSteps - 1 + 1) (by omega) c hc with e' | e'
        · rw [e'] at hw
          exact absurd hw (lt_irrefl _)
        · exfalso
          apply hcalm
          rw [e, e']
          simpa using hdiff.2
      · rw [e]; exact one_pos
  have hfin := (hpath i hil c hc).trans (within_done hR hdone hib hc)
  by_cases hr : ∃ d ∈ m.topology.keys, at' m.traj 0 d = 1 ∧ ∃ k, Walk (Passes m) k d c
  · rw [if_pos hr]
    have := hfin.2 hr
    rcases h01 i hil c hc with e | e
    · rw [e] at this
      exact absurd this (lt_irrefl _)
    · exact e
  · rw [if_neg hr]
    rcases h01 i hil c hc with e | e
    · exact e
    · exact absurd (hfin.1 (by rw [e]; exact one_pos)) hr

/-! ### The vectorised engine -/

/-- C121 for what the vectorised engine records; there inactive concepts pass on their activation as well, and of several
relations between two concepts the last one counts. -/
theorem C121_vector_walks {m m' : FCM ℝ} (hm : Vectorised m) (hs : Spreading m)
    (h0 : ∀ c ∈ m.topology.keys, 0 ≤ at' m.traj 0 c) (h : FCM.runInference true m = (.ok (), m')) {c : String}
    (hc : c ∈ m.topology.keys) {t : Nat} (ht : t < (m'.traj c).length) :
    (1 ≤ t → at' m'.traj t c = 0 ∨ at' m'.traj t c = 1) ∧ (0 < at' m'.traj t c ↔ ∃ d ∈ m.topology.keys, 0 < at' m.traj 0 d ∧
      Walk (fun e c => PassesLast m e c ∨ e = c ∧ Keeps m c) t d c) := by
  obtain ⟨l, hr, hinit⟩ := vec_run hm h
  rw [(hr c hc).1] at ht
  have h00 : ∀ d ∈ m.topology.keys, at' m'.traj 0 d = at' m.traj 0 d := fun d hd => hinit d hd (by omega)
  obtain ⟨h1, -, h3⟩ := spread_run (spreadNet_vector (spreadNet_of hm.clean hs)) (x := at' m'.traj) (len := l)
    (fun t ht c hc => (hr c hc).2 t ht) (fun c hc => by rw [h00 c hc]; exact h0 c hc) t ht c hc
  refine ⟨h1, h3.trans ?_⟩
  refine exists_congr fun d => and_congr_right fun hdk => ?_
  rw [h00 d hdk, Walk.congr fun d c => feed_vector_iff hm.clean]

/-- The sum of a growing state of zeros and ones changes by at least 1 if the state changes. -/
theorem sum_grows {cs : List String} {A B : String → ℝ} (h : ∀ c ∈ cs, A c ≤ B c) {c : String} (hc : c ∈ cs)
    (hlt : A c + 1 ≤ B c) : (cs.map A).sum + 1 ≤ (cs.map B).sum := by
  induction cs with
  | nil => cases hc
  | cons d cs ih =>
    have hle : (cs.map A).sum ≤ (cs.map B).sum := by
      have : ∀ l : List String, (∀ c ∈ l, A c ≤ B c) → (l.map A).sum ≤ (l.map B).sum := by
        intro l hl
        induction l with
        | nil => simp
        | cons e l ih' =>
          have h1 := hl e (by simp)
          have h2 := ih' fun c hc => hl c (by simp [hc])
          simp only [List.map_cons, List.sum_cons]
          linarith
      exact this cs fun c hc => h c (by simp [hc])
    have hd := h d (by simp)
    simp only [List.map_cons, List.sum_cons]
    rcases List.mem_cons.1 hc with rfl | hc
    · linarith
    · have := ih (fun c hc => h c (by simp [hc])) hc
      linarith

open Classical in
/-- C121: the vectorised engine decides the same question, with its notion of passing on. -/
theorem C121_vector_final {m : FCM ℝ} (hm : Vectorised m) (hs : Spreading m)
    (hk : ∀ c ∈ m.topology.keys, Keeps m c) (h0 : ∀ c ∈ m.topology.keys, at' m.traj 0 c = 0 ∨ at' m.traj 0 c = 1)
    (hdec : m.decisionName = "LAST") (hdiff : 0 < m.stabilityDiff ∧ m.stabilityDiff ≤ 1)
    (hmax : (m.topology.keys.length : Int) + m.extraSteps + 2 ≤ m.maxIter) :
    ∃ m', FCM.runInference true m = (.ok (), m') ∧ ∀ c ∈ m.topology.keys, m'.getConceptValue c =
      some (if ∃ d ∈ m.topology.keys, at' m.traj 0 d = 1 ∧ ∃ k, Walk (PassesLast m) k d c then 1 else 0) := by
  obtain ⟨x, e0, hx, hrange⟩ := vec_orbit hm.clean.clean hm.args hm.start
  have hkw : KwArgs m := fun c n f hn hf => (hm.args c n f hn hf).1.kw
  have hR : ∀ d c, PassesLast m d c → d ∈ m.topology.keys := by
    rintro d c ⟨r, hr, rfl, -⟩
    exact origins_vector hm.clean.reachable r hr
  have hR' : ∀ d c, PassesLast m d c → c ∈ m.topology.keys := by
    rintro d c ⟨r, hr, -, rfl, -⟩
    obtain ⟨a, ha, rfl⟩ := List.mem_map.1 ((latest_sublist _).subset hr)
    exact (hm.clean.clean.inv.ends a ha).2
  have h01 : ∀ t, ∀ c ∈ m.topology.keys, (x t c = 0 ∨ x t c = 1) ∧ (0 < x t c ↔
      Reached (PassesLast m) m.topology.keys (fun d => at' m.traj 0 d = 1) t c) := by
    intro t c hc
    obtain ⟨h1, -, h3⟩ := spread_run (spreadNet_vector (spreadNet_of hm.clean hs)) (x := x) (len := t + 1)
      (fun t _ c hc => hx t c hc) (fun c hc => by rw [e0 c hc]; rcases h0 c hc with e | e <;> simp [e]) t (by omega) c hc
    refine ⟨?_, h3.trans ?_⟩
    · by_cases ht : 1 ≤ t
      · exact h1 ht
      · rw [show t = 0 by omega, e0 c hc]
        exact h0 c hc
    · refine exists_congr fun d => and_congr_right fun hdk => ?_
      rw [e0 d hdk, Walk.congr fun d c => feed_vector_iff hm.clean, walk_wait (cs := m.topology.keys) hR' hk hdk]
      refine and_congr_left fun _ => ?_
      rcases h0 d hdk with e | e <;> simp [e]
  have hup : ∀ t, ∀ c ∈ m.topology.keys, x t c ≤ x (t + 1) c := by
    intro t c hc
    rcases (h01 t c hc).1 with e | e
    · rw [e]
      rcases (h01 (t + 1) c hc).1 with e' | e' <;> simp [e']
    · have := (h01 (t + 1) c hc).2.2 (within_mono t c ((h01 t c hc).2.1 (by rw [e]; exact one_pos)))
      rcases (h01 (t + 1) c hc).1 with e' | e'
      · rw [e'] at this
        exact absurd this (lt_irrefl _)
      · rw [e, e']
  -- a step is level exactly if nothing changes in it
  have hlevel : ∀ t, Level m.topology.keys x m.stabilityDiff (t + 1) ↔ ∀ c ∈ m.topology.keys, x (t + 1) c = x t c := by
    intro t
    unfold Level
    rw [real_lt, real_abs, total_real, total_real, Nat.add_sub_cancel]
    constructor
    · intro hlt c hc
      by_contra hne
      have h1 : x t c + 1 ≤ x (t + 1) c := by
        have := hup t c hc
        rcases (h01 t c hc).1 with e | e <;> rcases (h01 (t + 1) c hc).1 with e' | e' <;> rw [e, e'] at this hne ⊢ <;> norm_num at *
      have h2 := sum_grows (hup t) hc h1
      have h3 := lt_of_abs_lt hlt
      linarith [hdiff.2]
    · intro heq
      rw [List.map_congr_left heq, sub_self, abs_zero]
      exact hdiff.1
  have hsame : ∀ t, m.topology.keys.length ≤ t → ∀ c ∈ m.topology.keys, x (t + 1) c = x t c := by
    intro t ht c hc
    have h1 := (h01 (t + 1) c hc).2.trans (within_done hR (Or.inl ht) (Nat.le_succ t) hc)
    have h2 := (h01 t c hc).2.trans (within_done hR (Or.inl ht) (Nat.le_refl t) hc)
    rcases (h01 t c hc).1 with e | e <;> rcases (h01 (t + 1) c hc).1 with e' | e' <;> rw [e] at h2 <;> rw [e'] at h1 <;> rw [e, e']
    · exact absurd (h2.2 (h1.1 one_pos)) (lt_irrefl _)
    · exact absurd (h1.2 (h2.1 one_pos)) (lt_irrefl _)
  have hwin : ∀ s, m.topology.keys.length + 1 ≤ s → Level m.topology.keys x m.stabilityDiff s := by
    intro s hs
    obtain ⟨t, rfl⟩ : ∃ t, s = t + 1 := ⟨s - 1, by omega⟩
    exact (hlevel t).2 (hsame t (by omega))
  have hret : (FCM.runInference true m).1 = .ok () :=
    (C105_returns hm.clean hm.off hm.nonempty hkw (by rw [hdec]; decide) e0 hx (not_two hrange)).2
      ⟨m.topology.keys.length + 1 + m.extraSteps, by omega, by omega, fun s h1 _ => hwin s (by omega)⟩
  have h : FCM.runInference true m = (.ok (), (FCM.runInference true m).2) := by rw [← hret]
  refine ⟨_, h, fun c hc => ?_⟩
  obtain ⟨v, hv, hdv⟩ := C08_final_value hm.clean.reachable h hc
  rw [hv, Option.some.injEq]
  rw [hdec] at hdv
  obtain ⟨l, hle, hstop, hrec⟩ := C105_records hm.clean hm.off hm.nonempty hkw e0 hx (not_two hrange) h
  have hl : l ≤ m.topology.keys.length + 1 + m.extraSteps := by
    by_contra hcon
    obtain ⟨s, h1, h2, h3⟩ := hstop.least (m.topology.keys.length + 1 + m.extraSteps) (by omega) (by omega)
    exact h3 (hwin s (by omega))
  rw [if_pos (by omega)] at hrec
  have hab := hstop.above
  have hex := hm.clean.clean.inv.extra
  rw [last_at (len := l) (by rw [hrec c hc]; simp) hdv]
  set i := if m.extraSteps + 1 < l then l - m.extraSteps - 1 else l - 1 with hidef
  have hil : i < l := by split at hidef <;> omega
  have hib : l - m.extraSteps - 1 ≤ i := by split at hidef <;> omega
  have hat : at' (FCM.runInference true m).2.traj i c = x i c := by
    unfold at'
    rw [hrec c hc, List.getD_eq_getElem?_getD, List.getElem?_map, List.getElem?_range hil]
    rfl
  rw [hat]
  have hdone : ∀ c ∈ m.topology.keys,
      Reached (PassesLast m) m.topology.keys (fun d => at' m.traj 0 d = 1) (l - m.extraSteps - 1 + 1) c →
      Reached (PassesLast m) m.topology.keys (fun d => at' m.traj 0 d = 1) (l - m.extraSteps - 1) c := by
    intro c hc hw
    have := hstop.window (l - m.extraSteps) (Nat.le_refl _) (by omega)
    rw [show l - m.extraSteps = l - m.extraSteps - 1 + 1 by omega] at this
    rw [← (h01 _ c hc).2] at hw ⊢
    rwa [(hlevel _).1 this c hc] at hw
  have hfin := (h01 i c hc).2.trans (within_done hR (Or.inr hdone) hib hc)
  by_cases hr : ∃ d ∈ m.topology.keys, at' m.traj 0 d = 1 ∧ ∃ k, Walk (PassesLast m) k d c
  · rw [if_pos hr]
    have := hfin.2 hr
    rcases (h01 i c hc).1 with e | e
    · rw [e] at this
      exact absurd this (lt_irrefl _)
    · exact e
  · rw [if_neg hr]
    rcases (h01 i c hc).1 with e | e
    · exact e
    · exact absurd (hfin.1 (by rw [e]; exact one_pos)) hr

/-! ### Concrete cases -/

set_option maxRecDepth 8000
namespace Ex

noncomputable def rumor0 : FCM ℝ :=
  match FCM.new (decision := "LAST") (activation := "biestate") with
  | .ok m => m
  | .error _ => default

theorem rumor0_new : FCM.new (α := ℝ) (decision := "LAST") (activation := "biestate") = .ok rumor0 := rfl

noncomputable def rumorOps (debug : Bool) : List (Op ℝ) :=
  [.addConcept "a" {}, .addConcept "b" {}, .addConcept "c" {}, .addConcept "d" { isActive := some false }, .addConcept "e" {},
   .addRelation "a" "b" (1/2), .addRelation "b" "d" (1/4), .addRelation "c" "a" 1, .addRelation "d" "e" 1,
   .initConcept "a" 1 true, .assignDebug debug]

/-- a -> b -> d -> e and c -> a; only a is told, and d does not pass on what it hears. -/
noncomputable def rumor (debug : Bool) : FCM ℝ := runOps (rumorOps debug) rumor0

theorem rumor_clean (debug : Bool) : CleanReachable (rumor debug) := by
  cases debug
  · exact cleanReachable_of (.new rumor0_new) (rumorOps false) rfl
  · exact cleanReachable_of (.new rumor0_new) (rumorOps true) rfl

theorem rumor_keys (debug : Bool) : (rumor debug).topology.keys = ["a", "b", "c", "d", "e"] := by cases debug <;> rfl
theorem rumor_arcs (debug : Bool) : (rumor debug).arcList =
    [⟨"b", 1/2, "a"⟩, ⟨"d", 1/4, "b"⟩, ⟨"a", 1, "c"⟩, ⟨"e", 1, "d"⟩] := by cases debug <;> rfl

theorem rumor_node (debug : Bool) {c : String} {n : Node ℝ} (h : (rumor debug).topology.get? c = some n) :
    n.fn = some ⟨.bistate, "biestate", []⟩ ∧ n.exec = some (.kosko, "KOSKO") ∧ n.useMem = some true ∧
      (c ≠ "d" → n.active = true) ∧ (c = "d" → n.active = false) := by
  have hk : c ∈ (rumor debug).topology.keys := Dict.mem_keys_of_get? h
  rw [rumor_keys] at hk
  have key : ∀ c, c = "a" ∨ c = "b" ∨ c = "c" ∨ c = "e" → ∃ o, (rumor debug).topology.get? c = some o ∧
      o.fn = some ⟨.bistate, "biestate", []⟩ ∧ o.exec = some (.kosko, "KOSKO") ∧ o.useMem = some true ∧ o.active = true := by
    rintro c (rfl | rfl | rfl | rfl) <;> cases debug <;> exact ⟨_, rfl, rfl, rfl, rfl, rfl⟩
  have keyd : ∃ o, (rumor debug).topology.get? "d" = some o ∧
      o.fn = some ⟨.bistate, "biestate", []⟩ ∧ o.exec = some (.kosko, "KOSKO") ∧ o.useMem = some true ∧ o.active = false := by
    cases debug <;> exact ⟨_, rfl, rfl, rfl, rfl, rfl⟩
  by_cases hd : c = "d"
  · subst hd
    obtain ⟨o, h1, h2, h3, h4, h5⟩ := keyd
    rw [h] at h1
    cases h1
    exact ⟨h2, h3, h4, fun hne => absurd rfl hne, fun _ => h5⟩
  · obtain ⟨o, h1, h2, h3, h4, h5⟩ := key c (by simpa [hd] using hk)
    rw [h] at h1
    cases h1
    exact ⟨h2, h3, h4, fun _ => h5, fun e => absurd e hd⟩

theorem rumor_spreading (debug : Bool) : Spreading (rumor debug) where
  weights := fun a ha => by
    rw [rumor_arcs] at ha
    simp only [List.mem_cons, List.not_mem_nil, or_false] at ha
    rcases ha with rfl | rfl | rfl | rfl <;> norm_num
  concepts := fun c n hn => by
    obtain ⟨h1, h2, -⟩ := rumor_node debug hn
    refine ⟨⟨_, h1, rfl⟩, fun ex he => ?_⟩
    rw [h2] at he
    cases he
    rfl

theorem rumor_start (debug : Bool) : ∀ c ∈ (rumor debug).topology.keys,
    at' (rumor debug).traj 0 c = if c = "a" then 1 else 0 := by
  rw [rumor_keys]
  intro c hc
  have ha : at' (rumor debug).traj 0 "a" = 1 := by cases debug <;> rfl
  have hz : ∀ c, c = "b" ∨ c = "c" ∨ c = "d" ∨ c = "e" → at' (rumor debug).traj 0 c = lit 0 := by
    rintro c (rfl | rfl | rfl | rfl) <;> cases debug <;> rfl
  by_cases h : c = "a"
  · rw [if_pos h, h, ha]
  · rw [if_neg h, hz c (by simpa [h] using hc)]
    simp

theorem rumor_keeps (debug : Bool) : ∀ c ∈ (rumor debug).topology.keys, Keeps (rumor debug) c := by
  intro c hc
  obtain ⟨n, hn⟩ := Dict.exists_get?_of_mem hc
  exact ⟨n, hn, (rumor_node debug hn).2.2.1⟩

theorem rumor_01 (debug : Bool) : ∀ c ∈ (rumor debug).topology.keys,
    at' (rumor debug).traj 0 c = 0 ∨ at' (rumor debug).traj 0 c = 1 := by
  intro c hc
  rw [rumor_start debug c hc]
  split <;> simp

theorem rumor_diff (debug : Bool) : (rumor debug).stabilityDiff = 1/1000 := by
  have : (rumor debug).stabilityDiff = dec 1 1000 := by cases debug <;> rfl
  rw [this]
  norm_num [dec]

/-- The iterative engine: e hears nothing, because d passes nothing on; d hears it from a over b. -/
example : ∃ m', FCM.runInference true (rumor true) = (.ok (), m') ∧ m'.getConceptValue "d" = some 1 ∧
    m'.getConceptValue "e" = some 0 ∧ m'.getConceptValue "c" = some 0 := by
  have harc := rumor_arcs true
  obtain ⟨m', h, hv⟩ := C121_final (rumor_clean true) rfl (rumor_spreading true)
    (fun c n f hn hf => by rw [(rumor_node true hn).1] at hf; cases hf; rfl) (rumor_keeps true) (rumor_01 true) rfl
    (by rw [rumor_diff]; norm_num) (by decide) (by rw [rumor_keys]; decide)
  refine ⟨m', h, ?_, ?_, ?_⟩
  · rw [hv "d" (by rw [rumor_keys]; simp), if_pos]
    refine ⟨"a", by rw [rumor_keys]; simp, by rw [rumor_start true "a" (by rw [rumor_keys]; simp)]; simp, 2, ?_⟩
    obtain ⟨na, hna⟩ := Dict.exists_get?_of_mem (show "a" ∈ (rumor true).topology.keys by rw [rumor_keys]; simp)
    obtain ⟨nb, hnb⟩ := Dict.exists_get?_of_mem (show "b" ∈ (rumor true).topology.keys by rw [rumor_keys]; simp)
    refine .step (.step (.here "a") ⟨⟨"b", 1/2, "a"⟩, by rw [harc]; simp, rfl, rfl, by norm_num, na, hna, ?_⟩)
      ⟨⟨"d", 1/4, "b"⟩, by rw [harc]; simp, rfl, rfl, by norm_num, nb, hnb, ?_⟩
    · exact (rumor_node true hna).2.2.2.1 (by decide)
    · exact (rumor_node true hnb).2.2.2.1 (by decide)
  · rw [hv "e" (by rw [rumor_keys]; simp), if_neg]
    rintro ⟨d, hd, h1, k, hw⟩
    rw [rumor_start true d hd] at h1
    cases hw with
    | here => simp at h1
    | step _ hs =>
      obtain ⟨a, ha, h2, h3, -, n, hn, hact⟩ := hs
      rw [harc] at ha
      simp only [List.mem_cons, List.not_mem_nil, or_false] at ha
      rcases ha with rfl | rfl | rfl | rfl <;> simp at h3
      subst h2
      rw [(rumor_node true hn).2.2.2.2 rfl] at hact
      cases hact
  · rw [hv "c" (by rw [rumor_keys]; simp), if_neg]
    rintro ⟨d, hd, h1, k, hw⟩
    rw [rumor_start true d hd] at h1
    cases hw with
    | here => simp at h1
    | step _ hs =>
      obtain ⟨a, ha, h2, h3, -⟩ := hs
      rw [harc] at ha
      simp only [List.mem_cons, List.not_mem_nil, or_false] at ha
      rcases ha with rfl | rfl | rfl | rfl <;> simp at h3

theorem rumor_vec : Vectorised (rumor false) where
  clean := rumor_clean false
  off := rfl
  nonempty := by
    intro h
    have : (rumor false).topology.keys = [] := by rw [h]; rfl
    rw [rumor_keys] at this
    cases this
  args := fun c n f hn hf => by
    rw [(rumor_node false hn).1] at hf
    cases hf
    exact ⟨rfl, trivial⟩
  start := fun c hc => by
    rw [rumor_start false c hc]
    split <;> norm_num

/-- The vectorised engine ignores that d is inactive: e is 1. -/
example : ∃ m', FCM.runInference true (rumor false) = (.ok (), m') ∧ m'.getConceptValue "e" = some 1 := by
  obtain ⟨m', h, hv⟩ := C121_vector_final rumor_vec (rumor_spreading false) (rumor_keeps false) (rumor_01 false) rfl
    (by rw [rumor_diff]; norm_num) (by rw [rumor_keys]; decide)
  refine ⟨m', h, ?_⟩
  rw [hv "e" (by rw [rumor_keys]; simp), if_pos]
  have hl : latest ((rumor false).arcList.map Arc.toSpec) =
      [⟨"a", "b", 1/2⟩, ⟨"b", "d", 1/4⟩, ⟨"c", "a", 1⟩, ⟨"d", "e", 1⟩] := by
    rw [rumor_arcs]
    simp [latest, Arc.toSpec]
  refine ⟨"a", by rw [rumor_keys]; simp, by rw [rumor_start false "a" (by rw [rumor_keys]; simp)]; simp, 3, ?_⟩
  exact .step (.step (.step (.here "a") ⟨⟨"a", "b", 1/2⟩, by rw [hl]; simp, rfl, rfl, by norm_num⟩)
    ⟨⟨"b", "d", 1/4⟩, by rw [hl]; simp, rfl, rfl, by norm_num⟩) ⟨⟨"d", "e", 1⟩, by rw [hl]; simp, rfl, rfl, by norm_num⟩

end Ex

end PyFCM
