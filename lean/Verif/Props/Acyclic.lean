import Verif.Props.Spread
/-
C123: maps without feedback.
-/
namespace PyFCM
open Arith Spec

section
variable {α : Type} [Arith α]

/-! ### C123: without feedback a map settles within as many steps as it has concepts, and forgets its start -/

/-- An active concept `d` has a relation into `c`. -/
def Sends (m : FCM α) (d c : String) : Prop :=
  ∃ a ∈ m.arcList, a.origin = d ∧ a.dest = c ∧ ∃ n, m.topology.get? d = some n ∧ n.active = true

/-- `c` is an input of the map: no active concept has a relation into it, and its own update leaves its initial activation
as it is (a concept with memory whose activation function does not move it). -/
def Holds (m : FCM α) (c : String) : Prop :=
  (∀ d, ¬ Sends m d c) ∧ next m.net (at' m.traj 0) c = some (.ok (at' m.traj 0 c))

/-- No concept comes back to itself along relations, and every concept is either without memory or an input. -/
structure Forward (m : FCM α) : Prop where
  acyclic : ∀ k c, ¬ Walk (Sends m) (k + 1) c c
  concepts : ∀ c n, m.topology.get? c = some n → n.useMem = some false ∨ Holds m c

/-- A stability difference that accepts no movement at all. -/
def Spec.Sharp (d : α) : Prop := ∀ u v : α, Arith.lt d (Arith.abs (u - v)) = false → u = v

/-- A stability difference that accepts a standstill. -/
def Spec.Accepts (d : α) : Prop := ∀ u : α, Arith.lt d (Arith.abs (u - u)) = false

/-! ### Networks -/

/-- `d` has a say in the next value of `c`. -/
def Spec.Into (N : Net α) (d c : String) : Prop :=
  ∃ r ∈ N.rels, r.origin = d ∧ r.dest = c ∧ ∃ o, N.concept d = some o ∧ o.active = true

theorem next_local {N : Net α} {A B : String → α} {c : String} (hm : ∀ k, N.concept c = some k → k.memory = true → A c = B c)
    (h : ∀ d, Into N d c → A d = B d) : next N A c = next N B c := by
  have hin : inputs N A c = inputs N B c := by
    unfold inputs
    apply List.filterMap_congr
    intro r hr
    unfold along
    split
    · rename_i hd
      cases ho : N.concept r.origin with
      | none => rfl
      | some o =>
        simp only
        split
        · rename_i ha
          rw [h r.origin ⟨r, hr, rfl, hd, o, ho, ha⟩]
        · rfl
    · rfl
  unfold next
  rw [hin]
  cases hk : N.concept c with
  | none => rfl
  | some k =>
    simp only [Option.map_some]
    by_cases hmem : k.memory = true
    · rw [hm k hk hmem]
    · simp only [Bool.not_eq_true] at hmem
      simp only [hmem]
      rfl

/-- An input keeps its value. -/
theorem held {N : Net α} {cs : List String} {traj : String → List α} {len : Nat} (hr : IsRun N cs traj len) {c : String}
    (hc : c ∈ cs) (hin : ∀ d, ¬ Into N d c) (h0 : next N (at' traj 0) c = some (.ok (at' traj 0 c))) :
    ∀ t, t < len → at' traj t c = at' traj 0 c := by
  intro t
  induction t with
  | zero => exact fun _ => rfl
  | succ t ih =>
    intro ht
    have e := (hr c hc).2 t ht
    rw [next_local (B := at' traj 0) (fun _ _ _ => ih (by omega)) (fun d hd => absurd hd (hin d)), h0] at e
    exact (Except.ok.inj (Option.some.inj e)).symm

/-- A sequence of states that follows the recurrence up to `len`. -/
def Follows (N : Net α) (cs : List String) (x : Nat → String → α) (len : Nat) : Prop :=
  ∀ c ∈ cs, ∀ t, t + 1 < len → next N (x t) c = some (.ok (x (t + 1) c))

/-- Two runs, with the same constant values at the inputs, agree at `c` once they are longer than every walk to `c`. -/
theorem settles {N : Net α} {cs : List String} (ho : ∀ r ∈ N.rels, r.origin ∈ cs) {x y : Nat → String → α} {lx ly : Nat}
    (hx : Follows N cs x lx) (hy : Follows N cs y ly)
    (hN : ∀ c ∈ cs, (∀ k, N.concept c = some k → k.memory = false) ∨ ∃ v, (∀ t, t < lx → x t c = v) ∧ ∀ t, t < ly → y t c = v) :
    ∀ k, ∀ c ∈ cs, (∀ d, ¬ Walk (Into N) k d c) → ∀ t s, k ≤ t → t < lx → k ≤ s → s < ly → x t c = y s c := by
  intro k
  induction k with
  | zero => exact fun c _ h => absurd (Walk.here c) (h c)
  | succ k ih =>
    intro c hc h t s h1 h2 h3 h4
    rcases hN c hc with hfree | ⟨v, hv, hw⟩
    · obtain ⟨t, rfl⟩ : ∃ i, t = i + 1 := ⟨t - 1, by omega⟩
      obtain ⟨s, rfl⟩ : ∃ i, s = i + 1 := ⟨s - 1, by omega⟩
      have e1 := hx c hc t h2
      have e2 := hy c hc s h4
      rw [next_local (B := y s) (fun k hk hmem => by rw [hfree k hk] at hmem; cases hmem) (fun d hd => ?_), e2] at e1
      · exact (Except.ok.inj (Option.some.inj e1)).symm
      · have hdc : d ∈ cs := by
          obtain ⟨r, hr, rfl, -⟩ := hd
          exact ho r hr
        exact ih d hdc (fun e hw => h e (.step hw hd)) t s (by omega) (by omega) (by omega) (by omega)
    · rw [hv t h2, hw s h4]

theorem Walk.path {R : String → String → Prop} {k : Nat} {d c : String} (h : Walk R k d c) :
    ∃ f : Nat → String, f 0 = d ∧ f k = c ∧ ∀ i, i < k → R (f i) (f (i + 1)) := by
  induction h with
  | here d => exact ⟨fun _ => d, rfl, rfl, fun i hi => absurd hi (by omega)⟩
  | @step k d e c hw hr ih =>
    obtain ⟨f, h0, hk, hf⟩ := ih
    refine ⟨fun i => if i ≤ k then f i else c, by simp [h0], by simp, fun i hi => ?_⟩
    by_cases hik : i = k
    · subst hik
      simp [hk, hr]
    · have : i < k := by omega
      simp only [show i ≤ k by omega, show i + 1 ≤ k by omega, if_true]
      exact hf i this

theorem path_walk {R : String → String → Prop} {f : Nat → String} {k : Nat} (hf : ∀ i, i < k → R (f i) (f (i + 1))) (i : Nat) :
    ∀ j, i + j ≤ k → Walk R j (f i) (f (i + j)) := by
  intro j
  induction j with
  | zero => exact fun _ => .here _
  | succ j ih => exact fun h => .step (ih (by omega)) (hf (i + j) (by omega))

/-- Without cycles no walk among the concepts `cs` has as many steps as there are concepts. -/
theorem no_long_walk {R : String → String → Prop} {cs : List String} (hR : ∀ d c, R d c → d ∈ cs)
    (hac : ∀ k c, ¬ Walk R (k + 1) c c) {c : String} (hc : c ∈ cs) {k : Nat} (hk : cs.length ≤ k) (d : String) : ¬ Walk R k d c := by
  intro hw
  obtain ⟨f, -, hfk, hf⟩ := Walk.path hw
  have hin : ∀ i ∈ Finset.range (k + 1), f i ∈ cs.toFinset := by
    intro i hi
    rw [Finset.mem_range] at hi
    rw [List.mem_toFinset]
    by_cases h : i < k
    · exact hR _ _ (hf i h)
    · rw [show i = k by omega, hfk]
      exact hc
  obtain ⟨i, hi, j, hj, hne, he⟩ := Finset.exists_ne_map_eq_of_card_lt_of_maps_to
    (by rw [Finset.card_range]; exact lt_of_le_of_lt (cs.toFinset_card_le) (by omega)) hin
  rw [Finset.mem_range] at hi hj
  rcases Nat.lt_or_gt_of_ne hne with h | h
  · have := path_walk hf i (j - i) (by omega)
    rw [show i + (j - i) = (j - i - 1 + 1) + i by omega, show j - i = j - i - 1 + 1 by omega] at this
    rw [show j - i - 1 + 1 - 1 + 1 + i = j by omega, ← he] at this
    exact hac _ _ this
  · have := path_walk hf j (i - j) (by omega)
    rw [show j + (i - j) = i by omega, he, show i - j = i - j - 1 + 1 by omega] at this
    exact hac _ _ this

/-! ### Maps -/

theorem concept_node {m : FCM α} {c : String} {n : Node α} (hn : m.topology.get? c = some n) : m.net.concept c = n.toSpec := by
  show (m.topology.get? c).bind _ = _
  rw [hn]
  rfl

theorem concept_gen {m : FCM α} (hm : CleanReachable m) {c : String} {n : Node α} (hn : m.topology.get? c = some n) :
    ∃ k, m.net.concept c = some k ∧ k.active = n.active ∧ (k.memory = true ↔ n.useMem = some true) := by
  have hg := (hm.clean.good c n hn).full
  obtain ⟨f, hf⟩ := Option.isSome_iff_exists.1 hg.fn
  obtain ⟨ex, he⟩ := Option.isSome_iff_exists.1 hg.exec
  obtain ⟨um, hu⟩ := Option.isSome_iff_exists.1 hg.useMem
  have hk := concept_node hn
  unfold Node.toSpec at hk
  rw [hf, he, hu] at hk
  exact ⟨_, hk, rfl, by simp [hu]⟩

theorem into_iff {m : FCM α} (hm : CleanReachable m) {d c : String} : Into m.net d c ↔ Sends m d c := by
  constructor
  · rintro ⟨r, hr, ho, hd, o, hk, hact⟩
    obtain ⟨n, hn, -⟩ := Option.bind_eq_some_iff.1 (show (m.topology.get? d).bind Node.toSpec = some o from hk)
    obtain ⟨k', hk', h1, -⟩ := concept_gen hm hn
    rw [hk] at hk'
    cases hk'
    obtain ⟨a, ha, rfl⟩ := List.mem_map.1 hr
    exact ⟨a, ha, ho, hd, n, hn, by rw [← h1]; exact hact⟩
  · rintro ⟨a, ha, ho, hd, n, hn, hact⟩
    obtain ⟨k, hk, h1, -⟩ := concept_gen hm hn
    exact ⟨_, List.mem_map.2 ⟨a, ha, rfl⟩, ho, hd, k, hk, by rw [h1]; exact hact⟩

omit [Arith α] in
theorem sends_mem {m : FCM α} (d c : String) (h : Sends m d c) : d ∈ m.topology.keys := by
  obtain ⟨-, -, -, -, n, hn, -⟩ := h
  exact Dict.mem_keys_of_get? hn

/-- In a map without feedback each concept forgets its previous value or keeps it for ever. -/
theorem forward_concepts {m : FCM α} (hm : CleanReachable m) (hf : Forward m) {c : String} :
    (∀ k, m.net.concept c = some k → k.memory = false) ∨ Holds m c := by
  by_cases hh : Holds m c
  · exact .inr hh
  · refine .inl fun k hk => ?_
    obtain ⟨n, hn, -⟩ := Option.bind_eq_some_iff.1 (show (m.topology.get? c).bind Node.toSpec = some k from hk)
    rcases hf.concepts c n hn with h | h
    · obtain ⟨k', hk', -, h1⟩ := concept_gen hm hn
      rw [hk] at hk'
      cases hk'
      cases hmem : k.memory with
      | false => rfl
      | true => rw [h1.1 hmem] at h; cases h
    · exact absurd h hh

theorem held_run {m m' : FCM α} (hm : CleanReachable m) {len : Nat} (hi : IterRun m m' len) {c : String}
    (hc : c ∈ m.topology.keys) (hh : Holds m c) : ∀ t, t < len → at' m'.traj t c = at' m.traj 0 c := by
  intro t ht
  have h0 : next m.net (at' m'.traj 0) c = some (.ok (at' m'.traj 0 c)) := by
    rw [next_local (B := at' m.traj 0) (fun _ _ _ => (hi.init c hc).2) (fun d hd => absurd ((into_iff hm).1 hd) (hh.1 d)),
      (hi.init c hc).2]
    exact hh.2
  rw [held hi.run hc (fun d hd => hh.1 d ((into_iff hm).1 hd)) h0 t ht, (hi.init c hc).2]

theorem follows_run {N : Net α} {cs : List String} {traj : String → List α} {len : Nat} (h : IsRun N cs traj len) :
    Follows N cs (at' traj) len := fun c hc => (h c hc).2

/-- C123: two runs of maps that differ in the initial activations of concepts only, but not of inputs, agree at a concept
from the step on that no walk to it reaches: whatever the two steps are. -/
theorem C123_forgets {m k m' k' : FCM α} (hm : CleanReachable m) (hk : CleanReachable k) (dm : m.debug = true)
    (dk : k.debug = true) (hf : Forward m) (hnet : k.net = m.net) (hkeys : k.topology.keys = m.topology.keys)
    (h0 : ∀ c ∈ m.topology.keys, Holds m c → at' k.traj 0 c = at' m.traj 0 c)
    (rm : FCM.runInference true m = (.ok (), m')) (rk : FCM.runInference true k = (.ok (), k')) {c : String}
    (hc : c ∈ m.topology.keys) {j : Nat} (hj : ∀ d, ¬ Walk (Sends m) j d c) {t s : Nat} (h1 : j ≤ t)
    (h2 : t < (m'.traj c).length) (h3 : j ≤ s) (h4 : s < (k'.traj c).length) : at' m'.traj t c = at' k'.traj s c := by
  obtain ⟨len, hi⟩ := run_iter hm.reachable.inv dm rm
  obtain ⟨len', hi'⟩ := run_iter hk.reachable.inv dk rk
  have hr' := hi'.run
  rw [hnet, hkeys] at hr'
  rw [(hi.run c hc).1] at h2
  rw [(hr' c hc).1] at h4
  refine settles (origins hm.reachable) (follows_run hi.run) (follows_run hr') (fun d hd => ?_) j c hc
    (fun d hw => hj d ((Walk.congr fun d c => into_iff hm).1 hw)) t s h1 h2 h3 h4
  rcases forward_concepts hm hf (c := d) with h | h
  · exact .inl h
  · refine .inr ⟨_, held_run hm hi hd h, fun t ht => ?_⟩
    have hd' : d ∈ k.topology.keys := by rw [hkeys]; exact hd
    have e0 : at' k'.traj 0 d = at' m.traj 0 d := by rw [(hi'.init d hd').2, h0 d hd h]
    have hn : next m.net (at' k'.traj 0) d = some (.ok (at' k'.traj 0 d)) := by
      rw [next_local (B := at' m.traj 0) (fun _ _ _ => e0) (fun e he => absurd ((into_iff hm).1 he) (h.1 e)), e0]
      exact h.2
    rw [held hr' hd (fun e he => h.1 e ((into_iff hm).1 he)) hn t ht, e0]

/-- No walk has as many steps as there are concepts. -/
theorem C123_depth {m : FCM α} (hf : Forward m) {c : String} (hc : c ∈ m.topology.keys) {j : Nat}
    (hj : m.topology.keys.length ≤ j) (d : String) : ¬ Walk (Sends m) j d c :=
  no_long_walk sends_mem hf.acyclic hc hj d

/-- C123: from the step on that no walk to it reaches, a concept does not change; at the latest after as many steps as
there are concepts. -/
theorem C123_settles {m m' : FCM α} (hm : CleanReachable m) (dm : m.debug = true) (hf : Forward m)
    (rm : FCM.runInference true m = (.ok (), m')) {c : String} (hc : c ∈ m.topology.keys) {j : Nat}
    (hj : (∀ d, ¬ Walk (Sends m) j d c) ∨ m.topology.keys.length ≤ j) {t : Nat} (h1 : j ≤ t) (h2 : t < (m'.traj c).length) :
    at' m'.traj t c = at' m'.traj j c :=
  C123_forgets hm hm dm dm hf rfl rfl (fun _ _ _ => rfl) rm rm hc
    (hj.elim id fun h => C123_depth hf hc h) h1 h2 (Nat.le_refl j) (by omega)

/-- A state that every update leaves as it is, with the initial activations at the inputs. -/
structure Resting (m : FCM α) (X : String → α) : Prop where
  fixed : ∀ c ∈ m.topology.keys, next m.net X c = some (.ok (X c))
  inputs : ∀ c ∈ m.topology.keys, Holds m c → X c = at' m.traj 0 c

/-- Whatever a run reaches after as many steps as there are concepts is every resting state there is. -/
theorem resting_run {m m' : FCM α} (hm : CleanReachable m) (hf : Forward m) {len : Nat} (hi : IterRun m m' len)
    {X : String → α} (hX : Resting m X) {c : String} (hc : c ∈ m.topology.keys) {t : Nat}
    (h1 : m.topology.keys.length ≤ t) (h2 : t < len) : at' m'.traj t c = X c := by
  refine settles (y := fun _ => X) (ly := t + 1) (origins hm.reachable) (follows_run hi.run) (fun d hd _ _ => hX.fixed d hd)
    (fun d hd => ?_) t c hc (fun d hw => C123_depth hf hc h1 d ((Walk.congr fun d c => into_iff hm).1 hw)) t t
    (Nat.le_refl t) h2 (Nat.le_refl t) (by omega)
  rcases forward_concepts hm hf (c := d) with h | h
  · exact .inl h
  · exact .inr ⟨_, held_run hm hi hd h, fun _ _ => hX.inputs d hd h⟩

/-- C123: a map without feedback has at most one resting state. -/
theorem C123_one {m : FCM α} (hm : CleanReachable m) (hf : Forward m) {X Y : String → α} (hX : Resting m X)
    (hY : Resting m Y) {c : String} (hc : c ∈ m.topology.keys) : X c = Y c := by
  refine settles (x := fun _ => X) (y := fun _ => Y) (lx := m.topology.keys.length + 1) (ly := m.topology.keys.length + 1)
    (origins hm.reachable) (fun d hd _ _ => hX.fixed d hd) (fun d hd _ _ => hY.fixed d hd)
    (fun d hd => ?_) m.topology.keys.length c hc
    (fun d hw => C123_depth hf hc (Nat.le_refl _) d ((Walk.congr fun d c => into_iff hm).1 hw)) m.topology.keys.length
    m.topology.keys.length (Nat.le_refl _) (by omega) (Nat.le_refl _) (by omega)
  rcases forward_concepts hm hf (c := d) with h | h
  · exact .inl h
  · exact .inr ⟨_, fun _ _ => hX.inputs d hd h, fun _ _ => hY.inputs d hd h⟩

/-- A state that does not change in the next step is the resting state. -/
theorem resting_of {m m' : FCM α} (hm : CleanReachable m) {len : Nat} (hi : IterRun m m' len) {t : Nat} (ht : t + 1 < len)
    (he : ∀ c ∈ m.topology.keys, at' m'.traj (t + 1) c = at' m'.traj t c) : Resting m (at' m'.traj t) :=
  ⟨fun c hc => by rw [(hi.run c hc).2 t ht, he c hc], fun c hc hh => held_run hm hi hc hh t (by omega)⟩

/-- C123: with `stop_at_stabilize` (and a stability difference that accepts a standstill) a map without feedback stops at
the latest after one iteration more than it has concepts and extra steps, whatever the limit is. -/
theorem C123_stops {m m' : FCM α} (hm : CleanReachable m) (dm : m.debug = true) (hf : Forward m)
    (hs : m.stopAtStabilize = true) (hd : Accepts m.stabilityDiff) (rm : FCM.runInference true m = (.ok (), m')) :
    m'.iterations ≤ m.topology.keys.length + m.extraSteps + 1 := by
  obtain ⟨len, hi⟩ := run_iter hm.reachable.inv dm rm
  rw [hi.iters]
  by_contra hlt
  have hx := hm.reachable.inv.extra
  obtain ⟨s, h1, h2, h3⟩ := hi.stops.least (m.topology.keys.length + m.extraSteps + 1) (by omega) (by omega)
  refine h3 (.inr ⟨hs, by omega, fun c hc => ?_⟩)
  rw [C123_settles hm dm hf rm hc (j := s - 2) (.inr (by omega)) (by omega : s - 2 ≤ s - 1) (by rw [(hi.run c hc).1]; omega)]
  exact hd _

/-- The value LAST decides on. -/
theorem last_gen {traj : String → List α} {c : String} {len extra : Nat} (hlen : (traj c).length = len)
    {v : α} (hv : decideBy "LAST" (traj c) extra = some v) :
    v = at' traj (if extra + 1 < len then len - extra - 1 else len - 1) c := by
  unfold decideBy decideLast at hv
  rw [if_pos rfl, hlen] at hv
  unfold at'
  split at hv
  · rename_i h
    rw [if_pos h, List.getD_eq_getElem?_getD, hv]
    rfl
  · rename_i h
    rw [if_neg h, List.getD_eq_getElem?_getD, hv]
    rfl

/-- C123: with the decision function LAST, at least two extra steps and a limit of at least two above the number of
concepts, and either without `stop_at_stabilize` or with a stability difference that accepts no movement, the final values
of a map without feedback are its resting state. -/
theorem C123_final {m m' : FCM α} (hm : CleanReachable m) (dm : m.debug = true) (hf : Forward m)
    (hdec : m.decisionName = "LAST") (hx : 2 ≤ m.extraSteps) (hmax : (m.topology.keys.length : Int) + 2 ≤ m.maxIter)
    (hs : m.stopAtStabilize = false ∨ Sharp m.stabilityDiff) (rm : FCM.runInference true m = (.ok (), m')) :
    ∃ X, Resting m X ∧ ∀ c ∈ m.topology.keys, m'.getConceptValue c = some (X c) := by
  obtain ⟨len, hi⟩ := run_iter hm.reachable.inv dm rm
  have hab := hi.stops.above
  have hquiet := hi.stops.window (len - (m.extraSteps - 1)) (Nat.le_refl _) (by omega)
  have hlen2 : m.extraSteps < len := by
    rcases hquiet with h1 | ⟨-, h1, -⟩ <;> omega
  have hrest : ∀ c ∈ m.topology.keys, ∀ t, len - m.extraSteps - 1 ≤ t → t < len →
      at' m'.traj t c = at' m'.traj (len - m.extraSteps - 1) c := by
    intro c hc t h1 h2
    rcases hquiet with h3 | ⟨h3, h4, h5⟩
    · exact C123_settles hm dm hf rm hc (.inr (by omega)) h1 (by rw [(hi.run c hc).1]; exact h2)
    · have hsharp : Sharp m.stabilityDiff := by
        rcases hs with h | h
        · rw [h] at h3; cases h3
        · exact h
      have hstep : ∀ d ∈ m.topology.keys, at' m'.traj (len - m.extraSteps - 1 + 1) d = at' m'.traj (len - m.extraSteps - 1) d := by
        intro d hd
        have := hsharp _ _ (h5 d hd)
        rwa [show len - (m.extraSteps - 1) - 1 = len - m.extraSteps - 1 + 1 by omega,
          show len - (m.extraSteps - 1) - 2 = len - m.extraSteps - 1 by omega] at this
      have hconst : ∀ s, len - m.extraSteps - 1 + s < len → ∀ d ∈ m.topology.keys,
          at' m'.traj (len - m.extraSteps - 1 + s) d = at' m'.traj (len - m.extraSteps - 1) d := by
        intro s
        induction s with
        | zero => exact fun _ _ _ => rfl
        | succ s ih =>
          intro hs d hd
          have := follow hi.run (origins hm.reachable) hstep s (by omega) (by omega) d hd
          rw [show len - m.extraSteps - 1 + 1 + s = len - m.extraSteps - 1 + (s + 1) by omega, ih (by omega) d hd] at this
          exact this
      have := hconst (t - (len - m.extraSteps - 1)) (by omega) c hc
      rwa [show len - m.extraSteps - 1 + (t - (len - m.extraSteps - 1)) = t by omega] at this
  refine ⟨at' m'.traj (len - m.extraSteps - 1), resting_of hm hi (by omega) fun c hc => hrest c hc _ (by omega) (by omega),
    fun c hc => ?_⟩
  obtain ⟨v, hv, hdv⟩ := C08_final_value hm.reachable rm hc
  rw [hv, Option.some.injEq]
  rw [hdec] at hdv
  rw [last_gen (hi.run c hc).1 hdv]
  exact hrest c hc _ (by split <;> omega) (by split <;> omega)

theorem initConcept_diff {m k : FCM α} {b : String} {v : α} (h : FCM.initConcept b v true m = (.ok (), k)) :
    k.stabilityDiff = m.stabilityDiff := by
  unfold FCM.initConcept at h
  split at h
  · cases h
  · split at h
    · cases h
    · split at h
      · split at h
        · cases h
        · split at h
          · cases h
          · cases h
            rfl
      · cases h
        rfl

/-- Changing the initial activation of a concept that is no input leaves the map without feedback, with the same inputs. -/
theorem forward_init {m k : FCM α} (hm : CleanReachable m) (hk : CleanReachable k) (hf : Forward m) {b : String} {v : α}
    (hb : ¬ Holds m b) (hi : FCM.initConcept b v true m = (.ok (), k)) :
    (∀ d c, Sends k d c ↔ Sends m d c) ∧ (∀ c, Holds m c → Holds k c ∧ at' k.traj 0 c = at' m.traj 0 c) ∧ Forward k := by
  obtain ⟨e1, e2, e3, -⟩ := initConcept_effect hi
  have hS : ∀ d c, Sends k d c ↔ Sends m d c := fun d c => by rw [← into_iff hk, ← into_iff hm, e1]
  have hH : ∀ c, Holds m c → Holds k c ∧ at' k.traj 0 c = at' m.traj 0 c := by
    intro c hc
    have hcb : c ≠ b := fun e => hb (e ▸ hc)
    have e0 : at' k.traj 0 c = at' m.traj 0 c := by unfold at'; rw [e3 c hcb]
    refine ⟨⟨fun d hd => hc.1 d ((hS d c).1 hd), ?_⟩, e0⟩
    rw [e1, next_local (B := at' m.traj 0) (fun _ _ _ => e0) (fun d hd => absurd ((into_iff hm).1 hd) (hc.1 d)), e0]
    exact hc.2
  refine ⟨hS, hH, fun j c hw => hf.acyclic j c ((Walk.congr hS).1 hw), fun c n hn => ?_⟩
  rcases forward_concepts hm hf (c := c) with h | h
  · left
    obtain ⟨q, hq, -, h2⟩ := concept_gen hk hn
    have := h q (by rw [← e1]; exact hq)
    obtain ⟨um, hu⟩ := Option.isSome_iff_exists.1 (hk.clean.good c n hn).full.useMem
    cases um with
    | false => exact hu
    | true => rw [h2.2 hu] at this; cases this
  · exact .inr (hH c h).1

/-- C123: `init_concept` on a concept that is no input changes nothing from the step on that no walk reaches. -/
theorem C123_init {m k m' k' : FCM α} (hm : CleanReachable m) (dm : m.debug = true) (hf : Forward m) {b : String} {v : α}
    (hb : ¬ Holds m b) (hi : FCM.initConcept b v true m = (.ok (), k)) (rm : FCM.runInference true m = (.ok (), m'))
    (rk : FCM.runInference true k = (.ok (), k')) {c : String} (hc : c ∈ m.topology.keys) {j : Nat}
    (hj : (∀ d, ¬ Walk (Sends m) j d c) ∨ m.topology.keys.length ≤ j) {t s : Nat} (h1 : j ≤ t)
    (h2 : t < (m'.traj c).length) (h3 : j ≤ s) (h4 : s < (k'.traj c).length) : at' m'.traj t c = at' k'.traj s c := by
  have hk : CleanReachable k := .step (.initConcept b v true) hm hi
  obtain ⟨e1, e2, -, e4, -⟩ := initConcept_effect hi
  exact C123_forgets hm hk dm (e4.trans dm) hf e1 e2 (fun c _ h => ((forward_init hm hk hf hb hi).2.1 c h).2) rm rk hc
    (hj.elim id fun h => C123_depth hf hc h) h1 h2 h3 h4

/-- C123: nor does it change the final values, under the conditions of `C123_final`. -/
theorem C123_init_final {m k m' k' : FCM α} (hm : CleanReachable m) (dm : m.debug = true) (hf : Forward m)
    (hdec : m.decisionName = "LAST") (hx : 2 ≤ m.extraSteps) (hmax : (m.topology.keys.length : Int) + 2 ≤ m.maxIter)
    (hs : m.stopAtStabilize = false ∨ Sharp m.stabilityDiff) {b : String} {v : α}
    (hb : ¬ Holds m b) (hi : FCM.initConcept b v true m = (.ok (), k)) (rm : FCM.runInference true m = (.ok (), m'))
    (rk : FCM.runInference true k = (.ok (), k')) {c : String} (hc : c ∈ m.topology.keys) :
    k'.getConceptValue c = m'.getConceptValue c := by
  have hk : CleanReachable k := .step (.initConcept b v true) hm hi
  obtain ⟨e1, e2, -, e4, e5, e6, e7, e8⟩ := initConcept_effect hi
  obtain ⟨-, hH, hfk⟩ := forward_init hm hk hf hb hi
  obtain ⟨X, hX, hv⟩ := C123_final hm dm hf hdec hx hmax hs rm
  obtain ⟨Y, hY, hw⟩ := C123_final hk (e4.trans dm) hfk (e8.trans hdec) (by rw [e6]; exact hx)
    (by rw [e2, e7]; exact hmax) (by rw [e5, initConcept_diff hi]; exact hs) rk
  rw [hv c hc, hw c (by rw [e2]; exact hc)]
  have hY' : Resting m Y := ⟨fun d hd => by rw [← e1]; exact hY.fixed d (by rw [e2]; exact hd),
    fun d hd hh => by rw [hY.inputs d (by rw [e2]; exact hd) (hH d hh).1, (hH d hh).2]⟩
  rw [C123_one hm hf hX hY' hc]

/-- A numbering of the concepts that rises along every relation excludes feedback. -/
theorem acyclic_of_rank {R : String → String → Prop} (rank : String → Nat) (h : ∀ d c, R d c → rank d < rank c) (k : Nat)
    (c : String) : ¬ Walk R (k + 1) c c := by
  have key : ∀ k d c, Walk R k d c → rank d + k ≤ rank c := by
    intro k d c hw
    induction hw with
    | here d => exact Nat.le_refl _
    | step _ hr ih => have := h _ _ hr; omega
  intro hw
  have := key _ _ _ hw
  omega

end

/-- Over the reals a stability difference of 0 accepts a standstill and nothing else. -/
theorem C123_zero : Sharp (0 : ℝ) ∧ Accepts (0 : ℝ) := by
  refine ⟨fun u v h => ?_, fun u => ?_⟩
  · rw [← Bool.not_eq_true, real_lt, real_abs, not_lt] at h
    exact sub_eq_zero.1 (abs_eq_zero.1 (le_antisymm h (abs_nonneg _)))
  · rw [← Bool.not_eq_true, real_lt, real_abs]
    simp

/-- Every stability difference that is not negative accepts a standstill. -/
theorem C123_accepts {d : ℝ} (h : 0 ≤ d) : Accepts d := fun u => by
  rw [← Bool.not_eq_true, real_lt, real_abs]
  simpa using h

/-! ### The vectorised engine -/

/-- `d` has a relation into `c`, be it active or not. -/
def Leads (m : FCM ℝ) (d c : String) : Prop := ∃ a ∈ m.arcList, a.origin = d ∧ a.dest = c

/-- `c` is an input for the vectorised engine. -/
def HoldsVec (m : FCM ℝ) (c : String) : Prop :=
  (∀ d, ¬ Leads m d c) ∧ next m.net.vector (at' m.traj 0) c = some (.ok (at' m.traj 0 c))

/-- No feedback, for the vectorised engine. -/
structure ForwardVec (m : FCM ℝ) : Prop where
  acyclic : ∀ k c, ¬ Walk (Leads m) (k + 1) c c
  concepts : ∀ c n, m.topology.get? c = some n → n.useMem = some false ∨ HoldsVec m c

theorem into_vector {m : FCM ℝ} {d c : String} (h : Into m.net.vector d c) : Leads m d c := by
  obtain ⟨r, hr, ho, hd, -⟩ := h
  obtain ⟨a, ha, rfl⟩ := List.mem_map.1 ((latest_sublist _).subset hr)
  exact ⟨a, ha, ho, hd⟩

theorem Walk.mono {R S : String → String → Prop} (h : ∀ d c, R d c → S d c) {k : Nat} {d c : String} (hw : Walk R k d c) :
    Walk S k d c := by
  induction hw with
  | here d => exact .here d
  | step _ hr ih => exact .step ih (h _ _ hr)

theorem forward_vector {m : FCM ℝ} (hm : CleanReachable m) (hf : ForwardVec m) {c : String} :
    (∀ k, m.net.vector.concept c = some k → k.memory = false) ∨ HoldsVec m c := by
  by_cases hh : HoldsVec m c
  · exact .inr hh
  · refine .inl fun k hk => ?_
    obtain ⟨k0, hk0, rfl⟩ := Option.map_eq_some_iff.1 hk
    obtain ⟨n, hn, -⟩ := Option.bind_eq_some_iff.1 (show (m.topology.get? c).bind Node.toSpec = some k0 from hk0)
    rcases hf.concepts c n hn with h | h
    · obtain ⟨k', hk', -, h1⟩ := concept_gen hm hn
      rw [hk0] at hk'
      cases hk'
      show k0.memory = false
      cases hmem : k0.memory with
      | false => rfl
      | true => rw [h1.1 hmem] at h; cases h
    · exact absurd h hh

/-- C123 for what the vectorised engine records: from the step on that no walk to it reaches, at the latest after as many
steps as there are concepts, a concept has a value that depends neither on the step nor on the initial activations of
concepts that are no inputs. -/
theorem C123_vector {m k m' k' : FCM ℝ} (hm : Vectorised m) (hk : Vectorised k) (hf : ForwardVec m) (hnet : k.net = m.net)
    (hkeys : k.topology.keys = m.topology.keys)
    (h0 : ∀ c ∈ m.topology.keys, HoldsVec m c → at' k.traj 0 c = at' m.traj 0 c)
    (rm : FCM.runInference true m = (.ok (), m')) (rk : FCM.runInference true k = (.ok (), k')) {c : String}
    (hc : c ∈ m.topology.keys) {j : Nat} (hj : (∀ d, ¬ Walk (Leads m) j d c) ∨ m.topology.keys.length ≤ j) {t s : Nat}
    (h1 : j ≤ t) (h2 : t < (m'.traj c).length) (h3 : j ≤ s) (h4 : s < (k'.traj c).length) :
    at' m'.traj t c = at' k'.traj s c := by
  obtain ⟨l, hr, hinit⟩ := vec_run hm rm
  obtain ⟨l', hr', hinit'⟩ := vec_run hk rk
  rw [hnet, hkeys] at hr'
  rw [(hr c hc).1] at h2
  rw [(hr' c hc).1] at h4
  have hj' : ∀ d, ¬ Walk (Leads m) j d c := hj.elim id fun h =>
    no_long_walk (fun d c ⟨a, ha, ho, _⟩ => ho ▸ (hm.clean.clean.inv.ends a ha).1) hf.acyclic hc h
  refine settles (origins_vector hm.clean.reachable) (follows_run hr) (follows_run hr') (fun d hd => ?_) j c hc
    (fun d hw => hj' d (Walk.mono (fun _ _ => into_vector) hw)) t s h1 h2 h3 h4
  rcases forward_vector hm.clean hf (c := d) with h | h
  · exact .inl h
  · have hno : ∀ e, ¬ Into m.net.vector e d := fun e he => h.1 e (into_vector he)
    have e1 : at' m'.traj 0 d = at' m.traj 0 d := hinit d hd (by omega)
    have e2 : at' k'.traj 0 d = at' m.traj 0 d := by
      rw [hinit' d (by rw [hkeys]; exact hd) (by omega), h0 d hd h]
    have n1 : next m.net.vector (at' m'.traj 0) d = some (.ok (at' m'.traj 0 d)) := by
      rw [next_local (B := at' m.traj 0) (fun _ _ _ => e1) (fun e he => absurd he (hno e)), e1]
      exact h.2
    have n2 : next m.net.vector (at' k'.traj 0) d = some (.ok (at' k'.traj 0 d)) := by
      rw [next_local (B := at' m.traj 0) (fun _ _ _ => e2) (fun e he => absurd he (hno e)), e2]
      exact h.2
    exact .inr ⟨_, fun t ht => by rw [held hr hd hno n1 t ht, e1], fun t ht => by rw [held hr' hd hno n2 t ht, e2]⟩

/-! ### Examples -/

namespace Ex

def ladderOps (b : ℚ) : List (Op ℚ) :=
  [.addConcept "i" {}, .addConcept "b" { useMemory := some false }, .addConcept "c" { useMemory := some false },
   .addConcept "d" { useMemory := some false }, .addConcept "e" { useMemory := some false, isActive := some false },
   .addRelation "i" "b" (1/2), .addRelation "i" "c" 1, .addRelation "b" "c" (-1/2), .addRelation "c" "d" (1/4),
   .addRelation "d" "e" 1, .addRelation "e" "b" 1, .initConcept "i" (1/2) true, .initConcept "b" b true, .initConcept "e" 1 true,
   .assignMaxIter 7, .assignStabilityDiff 0]

/-- i -> b -> c -> d -> e and i -> c; e would feed b, but is not active. -/
def ladder (b : ℚ) : FCM ℚ := runOps (ladderOps b) sat0

def level (c : String) : Nat := if c = "i" then 0 else if c = "b" then 1 else if c = "c" then 2 else if c = "d" then 3 else 4

theorem ladder_clean : CleanReachable (ladder 1) := cleanReachable_of (.new sat0_new) (ladderOps 1) (by decide +kernel)
theorem ladder_clean' : CleanReachable (ladder (1/3)) := cleanReachable_of (.new sat0_new) (ladderOps (1/3)) (by decide +kernel)

theorem ladder_rank : (ladder 1).arcList.all (fun a => level a.origin < level a.dest ||
    ((ladder 1).topology.get? a.origin).all (fun n => n.active == false)) = true := by decide +kernel

theorem ladder_rises (d c : String) (h : Sends (ladder 1) d c) : level d < level c := by
  obtain ⟨a, ha, rfl, rfl, n, hn, hact⟩ := h
  have := List.all_eq_true.1 ladder_rank a ha
  rw [hn] at this
  simpa [hact] using this

theorem ladder_input : Holds (ladder 1) "i" := by
  refine ⟨fun d h => ?_, by decide +kernel⟩
  have := ladder_rises d "i" h
  have e : level "i" = 0 := rfl
  omega

theorem ladder_free : (ladder 1).topology.all (fun p => p.1 == "i" || p.2.useMem == some false) = true := by decide +kernel

theorem ladder_forward : Forward (ladder 1) where
  acyclic := acyclic_of_rank level ladder_rises
  concepts := fun c n hn => by
    have := List.all_eq_true.1 ladder_free _ (Dict.get?_mem hn)
    simp only [Bool.or_eq_true, beq_iff_eq] at this
    rcases this with h | h
    · subst h; exact .inr ladder_input
    · exact .inl h

theorem ladder_debug : (ladder 1).debug = true := by decide +kernel
theorem ladder_debug' : (ladder (1/3)).debug = true := by decide +kernel
theorem ladder_run : FCM.runInference true (ladder 1) = (.ok (), (FCM.runInference true (ladder 1)).2) := run_eq (by decide +kernel)
theorem ladder_run' : FCM.runInference true (ladder (1/3)) = (.ok (), (FCM.runInference true (ladder (1/3))).2) :=
  run_eq (by decide +kernel)
theorem ladder_keys : (ladder 1).topology.keys = ["i", "b", "c", "d", "e"] := by decide +kernel

theorem zero_sharp : Sharp (0 : ℚ) ∧ Accepts (0 : ℚ) := by
  have key : ∀ x : ℚ, decide ((0 : ℚ) < (if x < 0 then -x else x)) = false ↔ x = 0 := by
    intro x
    rw [decide_eq_false_iff_not]
    split
    · rename_i h; constructor
      · intro h2; linarith
      · intro h2; linarith
    · rename_i h; constructor
      · intro h2; linarith
      · intro h2; linarith
  exact ⟨fun u v h => sub_eq_zero.1 ((key (u - v)).1 h), fun u => (key (u - u)).2 (sub_self u)⟩

/-- What is recorded: every concept is at rest after as many steps as relations lead to it. -/
theorem ladder_traj : ["i", "b", "c", "d", "e"].map (FCM.runInference true (ladder 1)).2.traj =
    [[1/2, 1/2, 1/2, 1/2, 1/2, 1/2, 1/2], [1, 1/4, 1/4, 1/4, 1/4, 1/4, 1/4], [0, 0, 3/8, 3/8, 3/8, 3/8, 3/8],
     [0, 0, 0, 3/32, 3/32, 3/32, 3/32], [1, 0, 0, 0, 3/32, 3/32, 3/32]] := by decide +kernel

theorem ladder_b : ¬ Holds (ladder 1) "b" := fun h => by
  have e : ((ladder 1).topology.get? "i").map (fun n => n.active) = some true := by decide +kernel
  obtain ⟨n, hn, hact⟩ := Option.map_eq_some_iff.1 e
  exact h.1 "i" ⟨⟨"b", 1/2, "i"⟩, by decide +kernel, rfl, rfl, n, hn, hact⟩

/-- The start of b, 1 or 1/3, is forgotten by d after three steps … -/
example := C123_init ladder_clean ladder_debug ladder_forward ladder_b (v := 1/3) (c := "d") (run_eq (by decide +kernel))
  ladder_run (run_eq (by decide +kernel)) (by decide +kernel) (j := 5) (.inr (by decide +kernel)) (t := 6) (s := 5)

/-- … and does not show in the final values, which are the resting state. -/
example := C123_init_final ladder_clean ladder_debug ladder_forward (by decide +kernel) (by decide +kernel) (by decide +kernel)
  (.inr zero_sharp.1) ladder_b (v := 1/3) (c := "d") (run_eq (by decide +kernel)) ladder_run (run_eq (by decide +kernel))

example := C123_final ladder_clean ladder_debug ladder_forward (by decide +kernel) (by decide +kernel) (by decide +kernel)
  (.inr zero_sharp.1) ladder_run

example := C123_settles ladder_clean ladder_debug ladder_forward ladder_run (c := "e") (by decide +kernel) (j := 5)
  (.inr (by decide +kernel)) (t := 6)

/-- It stops after at most 5 + 2 + 1 iterations, here after 7. -/
example : (FCM.runInference true (ladder 1)).2.iterations ≤ 8 := by
  have := C123_stops ladder_clean ladder_debug ladder_forward (by decide +kernel) zero_sharp.2 ladder_run
  have e1 : (ladder 1).topology.keys.length = 5 := by decide +kernel
  have e2 : (ladder 1).extraSteps = 2 := by decide +kernel
  omega

example : ["i", "b", "c", "d", "e"].map (FCM.runInference true (ladder 1)).2.getConceptValue =
    [some (1/2), some (1/4), some (3/8), some (3/32), some (3/32)] := by decide +kernel

/-- A concept with memory that is no input: two concepts, but ten steps until b is at rest. -/
def pond : FCM ℚ := runOps [.addConcept "a" {}, .addConcept "b" {}, .addRelation "a" "b" (1/10), .initConcept "a" 1 true,
  .assignMaxIter 20] sat0

theorem C123_memory : (FCM.runInference true pond).1 = .ok () ∧ (FCM.runInference true pond).2.traj "b" =
    [0, 1/10, 1/5, 3/10, 2/5, 1/2, 3/5, 7/10, 4/5, 9/10, 1, 1, 1] := by decide +kernel

def sleepyOps : List (Op ℚ) :=
  [.addConcept "i" {}, .addConcept "b" { useMemory := some false },
   .addConcept "c" { useMemory := some false, activation := some "biestate" }, .addConcept "d" { useMemory := some false },
   .addRelation "i" "b" 1, .addRelation "b" "c" 1, .addRelation "c" "d" 1, .initConcept "i" (1/2000) true, .assignMaxIter 20]

/-- i -> b -> c -> d, where c turns what b says into 1. -/
def sleepy : FCM ℚ := runOps sleepyOps sat0

/-- With the usual stability difference 1/1000 the run may end before the map is at rest: the first step moves no concept
by more than 1/2000, the run ends with the value 0 for d, and d would be 1 one step later. -/
theorem C123_early : (FCM.runInference true sleepy).1 = .ok () ∧ sleepy.stabilityDiff = 1/1000 ∧
    (FCM.runInference true sleepy).2.traj "c" = [0, 0, 1] ∧ (FCM.runInference true sleepy).2.getConceptValue "d" = some 0 ∧
    next sleepy.net (at' (FCM.runInference true sleepy).2.traj 2) "d" = some (.ok 1) := by decide +kernel

end Ex

/-! A chain for the vectorised engine. -/

set_option maxRecDepth 8000
namespace Ex

noncomputable def relayOps : List (Op ℝ) :=
  [.addConcept "a" {}, .addConcept "b" { useMemory := some false }, .addConcept "c" { useMemory := some false },
   .addRelation "a" "b" (1/2), .addRelation "b" "c" 1, .initConcept "a" 1 true, .initConcept "c" 1 true, .assignDebug false]

/-- a -> b -> c, all of them two-valued; a is 1 and stays so. -/
noncomputable def relay : FCM ℝ := runOps relayOps rumor0

theorem relay_clean : CleanReachable relay := cleanReachable_of (.new rumor0_new) relayOps rfl
theorem relay_keys : relay.topology.keys = ["a", "b", "c"] := rfl
theorem relay_arcs : relay.arcList = [⟨"b", 1/2, "a"⟩, ⟨"c", 1, "b"⟩] := rfl

theorem relay_node {c : String} {n : Node ℝ} (h : relay.topology.get? c = some n) :
    n.fn = some ⟨.bistate, "biestate", []⟩ ∧ n.exec = some (.kosko, "KOSKO") ∧ (c ≠ "a" → n.useMem = some false) ∧
      (c = "a" → n.useMem = some true) := by
  have hk : c ∈ relay.topology.keys := Dict.mem_keys_of_get? h
  rw [relay_keys] at hk
  have key : ∀ c, c = "b" ∨ c = "c" → ∃ o, relay.topology.get? c = some o ∧
      o.fn = some ⟨.bistate, "biestate", []⟩ ∧ o.exec = some (.kosko, "KOSKO") ∧ o.useMem = some false := by
    rintro c (rfl | rfl) <;> exact ⟨_, rfl, rfl, rfl, rfl⟩
  have keya : ∃ o, relay.topology.get? "a" = some o ∧
      o.fn = some ⟨.bistate, "biestate", []⟩ ∧ o.exec = some (.kosko, "KOSKO") ∧ o.useMem = some true := ⟨_, rfl, rfl, rfl, rfl⟩
  by_cases hd : c = "a"
  · subst hd
    obtain ⟨o, h1, h2, h3, h4⟩ := keya
    rw [h] at h1
    cases h1
    exact ⟨h2, h3, fun hne => absurd rfl hne, fun _ => h4⟩
  · obtain ⟨o, h1, h2, h3, h4⟩ := key c (by simpa [hd] using hk)
    rw [h] at h1
    cases h1
    exact ⟨h2, h3, fun _ => h4, fun e => absurd e hd⟩

theorem relay_start : ∀ c ∈ relay.topology.keys, at' relay.traj 0 c = if c = "b" then 0 else 1 := by
  rw [relay_keys]
  intro c hc
  have ha : ∀ c, c = "a" ∨ c = "c" → at' relay.traj 0 c = 1 := by rintro c (rfl | rfl) <;> rfl
  have hz : at' relay.traj 0 "b" = lit 0 := rfl
  by_cases h : c = "b"
  · rw [if_pos h, h, hz]
    simp
  · rw [if_neg h, ha c (by simp [h] at hc; exact hc)]

theorem relay_vec : Vectorised relay where
  clean := relay_clean
  off := rfl
  nonempty := by
    intro h
    have : relay.topology.keys = [] := by rw [h]; rfl
    rw [relay_keys] at this
    cases this
  args := fun c n f hn hf => by
    rw [(relay_node hn).1] at hf
    cases hf
    exact ⟨rfl, trivial⟩
  start := fun c hc => by
    rw [relay_start c hc]
    split <;> norm_num

def stage (c : String) : Nat := if c = "a" then 0 else if c = "b" then 1 else 2

theorem relay_rises (d c : String) (h : Leads relay d c) : stage d < stage c := by
  obtain ⟨a, ha, rfl, rfl⟩ := h
  rw [relay_arcs] at ha
  simp only [List.mem_cons, List.not_mem_nil, or_false] at ha
  rcases ha with rfl | rfl <;> decide

theorem relay_input : HoldsVec relay "a" := by
  refine ⟨fun d h => ?_, ?_⟩
  · obtain ⟨a, ha, -, h2⟩ := h
    rw [relay_arcs] at ha
    simp only [List.mem_cons, List.not_mem_nil, or_false] at ha
    rcases ha with rfl | rfl <;> simp at h2
  · obtain ⟨n, hn⟩ := Dict.exists_get?_of_mem (show "a" ∈ relay.topology.keys by rw [relay_keys]; simp)
    obtain ⟨h1, h2, -, h4⟩ := relay_node hn
    have hk := concept_node hn
    rw [toSpec_of h1 h2 (h4 rfl)] at hk
    have hin : inputs relay.net.vector (at' relay.traj 0) "a" = [] := by
      unfold inputs
      rw [show relay.net.vector.rels = latest (relay.arcList.map Arc.toSpec) from rfl, relay_arcs]
      simp [latest, Arc.toSpec, along]
    have hs : at' relay.traj 0 "a" = 1 := rfl
    unfold next
    rw [hin, hs, show relay.net.vector.concept "a" = _ from congrArg (Option.map Concept.vector) hk]
    simp [Concept.vector, total, source, callActv, bistate]

theorem relay_forward : ForwardVec relay where
  acyclic := acyclic_of_rank stage relay_rises
  concepts := fun c n hn => by
    by_cases h : c = "a"
    · subst h; exact .inr relay_input
    · exact .inl ((relay_node hn).2.2.1 h)

/-- After three steps c does not change any more. -/
theorem relay_settles {m' : FCM ℝ} (h : FCM.runInference true relay = (.ok (), m')) {t : Nat} (h1 : 3 ≤ t)
    (h2 : t < (m'.traj "c").length) : at' m'.traj t "c" = at' m'.traj 3 "c" :=
  C123_vector relay_vec relay_vec relay_forward rfl rfl (fun _ _ _ => rfl) h h (by rw [relay_keys]; simp) (j := 3)
    (.inr (by rw [relay_keys]; decide)) h1 h2 (Nat.le_refl 3) (by omega)

end Ex

end PyFCM
