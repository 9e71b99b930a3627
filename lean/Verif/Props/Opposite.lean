import Verif.Props.IterReturns
import Verif.Props.VecChange
/-
Replacing concepts by their opposites.
-/
namespace PyFCM
open Arith Spec

/-! ### Specification -/

/-- The opposite of a value: `-a`, or `1 - a` for concepts that live in [0,1] (Papageorgiou). -/
noncomputable def Spec.turned (k : Concept ℝ) (a : ℝ) : ℝ := if k.rescale then 1 - a else -a

/-- The opposite value for the concepts in `s`, the same value for the others. -/
noncomputable def Spec.turn (N : Net ℝ) (s : String → Bool) (c : String) (a : ℝ) : ℝ :=
  match s c, N.concept c with
  | true, some k => turned k a
  | _, _ => a

/-- The relation changes its sign if exactly one of its ends is in `s`. -/
def Spec.opposed (s : String → Bool) (r : Rel ℝ) : Rel ℝ :=
  if s r.origin = s r.dest then r else { r with weight := -r.weight }

/-- The sum of the absolute weights of the relations into `c`. -/
noncomputable def Spec.inflow (N : Net ℝ) (c : String) : ℝ := (N.rels.map fun r => if r.dest = c then |r.weight| else 0).sum

/-- The activation function turns opposite inputs into opposite values, as far as inputs can reach. -/
def Spec.Turnable (N : Net ℝ) (c : String) : Prop :=
  ∃ k, N.concept c = some k ∧ k.divisor = none ∧
    ∀ x, |x| ≤ 3 * (inflow N c + 1) → ∀ v, k.act x = .ok v → k.act (-x) = .ok (turned k v)

/-- `N` is `M` with the concepts in `s` replaced by their opposites. -/
structure Spec.Opposite (s : String → Bool) (M N : Net ℝ) : Prop where
  concepts : N.concept = M.concept
  rels : N.rels = M.rels.map (opposed s)

/-! ### One step -/

theorem turn_known {N : Net ℝ} {s : String → Bool} {c : String} {k : Concept ℝ} (hk : N.concept c = some k) (a : ℝ) :
    turn N s c a = if s c then turned k a else a := by
  unfold turn
  rw [hk]
  cases s c <;> rfl

theorem source_turned (k : Concept ℝ) (a : ℝ) : source k (turned k a) = -source k a := by
  unfold source turned
  split
  · show (2 : ℤ) * (1 - a) - ((1 : ℤ) : ℝ) = -((2 : ℤ) * a - ((1 : ℤ) : ℝ))
    push_cast
    ring
  · rfl

/-- `-x` for the concepts in `s`. -/
noncomputable def sgn (s : String → Bool) (c : String) (x : ℝ) : ℝ := if s c then -x else x

theorem source_turn {N : Net ℝ} {s : String → Bool} {c : String} {k : Concept ℝ} (hk : N.concept c = some k) (a : ℝ) :
    source k (turn N s c a) = sgn s c (source k a) := by
  rw [turn_known hk]
  unfold sgn
  split
  · exact source_turned k a
  · rfl

theorem along_turn {M N : Net ℝ} {s : String → Bool} (hc : N.concept = M.concept) (A : String → ℝ) (c : String) (r : Rel ℝ) :
    along N (fun d => turn M s d (A d)) c (opposed s r) = (along M A c r).map (sgn s c) := by
  have ho : (opposed s r).origin = r.origin := by unfold opposed; split <;> rfl
  have hd : (opposed s r).dest = r.dest := by unfold opposed; split <;> rfl
  unfold along
  rw [ho, hd, hc]
  by_cases h : r.dest = c
  · rw [if_pos h, if_pos h]
    cases hk : M.concept r.origin with
    | none => rfl
    | some k =>
      dsimp only
      split
      · rw [source_turn hk]
        simp only [Option.map_some, Option.some.injEq]
        unfold opposed sgn
        subst h
        cases s r.origin <;> cases s r.dest <;> simp
      · rfl
  · rw [if_neg h, if_neg h]; rfl

theorem inputs_turn {M N : Net ℝ} {s : String → Bool} (h : Opposite s M N) (A : String → ℝ) (c : String) :
    inputs N (fun d => turn M s d (A d)) c = (inputs M A c).map (sgn s c) := by
  unfold inputs
  rw [h.rels]
  induction M.rels with
  | nil => rfl
  | cons r rs ih =>
    rw [List.map_cons, List.filterMap_cons, List.filterMap_cons, along_turn h.concepts, ih]
    cases along M A c r <;> rfl

theorem total_sgn (s : String → Bool) (c : String) (xs : List ℝ) : total (xs.map (sgn s c)) = sgn s c (total xs) := by
  have : ∀ (xs : List ℝ) (a : ℝ), (xs.map (sgn s c)).foldl (· + ·) (sgn s c a) = sgn s c (xs.foldl (· + ·) a) := by
    intro xs
    induction xs with
    | nil => exact fun a => rfl
    | cons x xs ih =>
      intro a
      rw [List.map_cons, List.foldl_cons, List.foldl_cons, ← ih]
      congr 1
      unfold sgn
      split
      · show -a + -x = -(a + x); ring
      · rfl
  have h := this xs (lit 0)
  unfold total
  rw [← h]
  congr 1
  unfold sgn
  split
  · show (lit 0 : ℝ) = -lit 0
    simp
  · rfl

theorem along_le {N : Net ℝ} {A : String → ℝ} {c : String} {r : Rel ℝ} (hA : -1 ≤ A r.origin ∧ A r.origin ≤ 1) {v : ℝ}
    (h : along N A c r = some v) : |v| ≤ 3 * (if r.dest = c then |r.weight| else 0) := by
  unfold along at h
  by_cases hd : r.dest = c
  · rw [if_pos hd] at h ⊢
    cases hk : N.concept r.origin with
    | none => rw [hk] at h; cases h
    | some k =>
      rw [hk] at h
      dsimp only at h
      split at h
      · cases h
        rw [abs_mul]
        apply mul_le_mul_of_nonneg_right _ (abs_nonneg _)
        unfold source
        rw [abs_le]
        split
        · show -3 ≤ ((2 : ℤ) : ℝ) * A r.origin - ((1 : ℤ) : ℝ) ∧ ((2 : ℤ) : ℝ) * A r.origin - ((1 : ℤ) : ℝ) ≤ 3
          push_cast
          constructor <;> linarith [hA.1, hA.2]
        · constructor <;> linarith [hA.1, hA.2]
      · cases h
  · rw [if_neg hd] at h; cases h

theorem total_sum (xs : List ℝ) : total xs = xs.sum := by
  have : ∀ (xs : List ℝ) (a : ℝ), xs.foldl (· + ·) a = a + xs.sum := by
    intro xs
    induction xs with
    | nil => intro a; simp
    | cons x xs ih => intro a; rw [List.foldl_cons, ih, List.sum_cons]; ring
  unfold total
  rw [this]
  simp

theorem inputs_le {N : Net ℝ} {A : String → ℝ} (hA : ∀ r ∈ N.rels, -1 ≤ A r.origin ∧ A r.origin ≤ 1) (c : String) :
    |total (inputs N A c)| ≤ 3 * inflow N c := by
  rw [total_sum]
  unfold inputs inflow
  generalize N.rels = rs at hA
  induction rs with
  | nil => simp
  | cons r rs ih =>
    have ih := ih fun q hq => hA q (List.mem_cons_of_mem _ hq)
    rw [List.filterMap_cons, List.map_cons, List.sum_cons]
    cases ha : along N A c r with
    | none =>
      dsimp only
      have : 0 ≤ (if r.dest = c then |r.weight| else 0) := by split <;> positivity
      linarith
    | some v =>
      dsimp only
      rw [List.sum_cons]
      have h1 := along_le (hA r (by simp)) ha
      have h2 := abs_add_le v (List.filterMap (along N A c) rs).sum
      linarith

theorem next_turn {M N : Net ℝ} {s : String → Bool} (h : Opposite s M N) {A : String → ℝ} {c : String}
    (hA : ∀ r ∈ M.rels, -1 ≤ A r.origin ∧ A r.origin ≤ 1) (hc : -1 ≤ A c ∧ A c ≤ 1) (ht : s c = true → Turnable M c) {v : ℝ}
    (hv : next M A c = some (.ok v)) : next N (fun d => turn M s d (A d)) c = some (.ok (turn M s c v)) := by
  unfold next at hv ⊢
  rw [h.concepts]
  cases hk : M.concept c with
  | none => rw [hk] at hv; cases hv
  | some k =>
    rw [hk] at hv
    simp only [Option.map_some, Option.some.injEq] at hv ⊢
    rw [inputs_turn h, total_sgn, source_turn hk, turn_known hk]
    have hin := inputs_le hA c
    cases hs : s c with
    | false => simpa [sgn, hs] using hv
    | true =>
      obtain ⟨k', hk', hd, hodd⟩ := ht hs
      rw [hk] at hk'; cases hk'
      rw [hd] at hv ⊢
      dsimp only at hv ⊢
      simp only [sgn, hs, if_true]
      have e : (if k.memory = true then -total (inputs M A c) + -source k (A c) else -total (inputs M A c)) =
          -(if k.memory = true then total (inputs M A c) + source k (A c) else total (inputs M A c)) := by
        split
        · ring
        · rfl
      rw [e]
      refine hodd _ ?_ v hv
      have hsrc : |source k (A c)| ≤ 3 := by
        unfold source
        rw [abs_le]
        split
        · show -3 ≤ ((2 : ℤ) : ℝ) * A c - ((1 : ℤ) : ℝ) ∧ ((2 : ℤ) : ℝ) * A c - ((1 : ℤ) : ℝ) ≤ 3
          push_cast
          constructor <;> linarith [hc.1, hc.2]
        · constructor <;> linarith [hc.1, hc.2]
      split
      · exact (abs_add_le _ _).trans (by linarith)
      · linarith

/-! ### Runs -/

theorem turn_diff (N : Net ℝ) (s : String → Bool) (c : String) (a b : ℝ) : |turn N s c a - turn N s c b| = |a - b| := by
  unfold turn
  split
  · unfold turned
    split
    · rw [show 1 - a - (1 - b) = -(a - b) by ring, abs_neg]
    · rw [show -a - -b = -(a - b) by ring, abs_neg]
  · rfl

theorem at'_map {x : String → List ℝ} {f : String → ℝ → ℝ} {t : Nat} {c : String} (h : t < (x c).length) :
    at' (fun d => (x d).map (f d)) t c = f c (at' x t c) := by
  simp [at', List.getD_eq_getElem?_getD, h]

theorem run_turn {M N : Net ℝ} {s : String → Bool} (h : Opposite s M N) {cs : List String} {x : String → List ℝ} {len : Nat}
    (hcs : ∀ r ∈ M.rels, r.origin ∈ cs) (hx : IsRun M cs x len)
    (hr : ∀ c ∈ cs, ∀ t, t < len → -1 ≤ at' x t c ∧ at' x t c ≤ 1) (ht : ∀ c ∈ cs, s c = true → Turnable M c) :
    IsRun N cs (fun c => (x c).map (turn M s c)) len := by
  intro c hc
  refine ⟨by simp [(hx c hc).1], fun t htl => ?_⟩
  rw [at'_map (by rw [(hx c hc).1]; exact htl), ← next_turn h (A := at' x t) (fun r hr' => hr _ (hcs r hr') t (by omega))
    (hr c hc t (by omega)) (ht c hc) ((hx c hc).2 t htl)]
  refine next_congr (at'_map (by rw [(hx c hc).1]; omega)) fun r hr' => ?_
  obtain ⟨q, hq, rfl⟩ : ∃ q ∈ M.rels, opposed s q = r := by rw [h.rels] at hr'; simpa using hr'
  have ho : (opposed s q).origin = q.origin := by unfold opposed; split <;> rfl
  rw [ho]
  exact at'_map (by rw [(hx _ (hcs q hq)).1]; omega)

theorem quiet_turn {M : Net ℝ} {s : String → Bool} {cs cs' : List String} (hcs : ∀ c, c ∈ cs' ↔ c ∈ cs) {x : String → List ℝ}
    {len : Nat} (hl : ∀ c ∈ cs, (x c).length = len) {maxIter : Int} {stop : Bool} {d : ℝ} {k : Nat} (hk : k ≤ len) (h0 : 0 < len) :
    Quiet (fun c => (x c).map (turn M s c)) cs' maxIter stop d k ↔ Quiet x cs maxIter stop d k := by
  have e : ∀ c ∈ cs, Arith.abs (at' (fun c => (x c).map (turn M s c)) (k - 1) c - at' (fun c => (x c).map (turn M s c)) (k - 2) c) =
      Arith.abs (at' x (k - 1) c - at' x (k - 2) c) := by
    intro c hc
    rw [at'_map (by rw [hl c hc]; omega), at'_map (by rw [hl c hc]; omega)]
    exact turn_diff M s c _ _
  unfold Quiet Calm
  refine or_congr Iff.rfl (and_congr Iff.rfl (and_congr Iff.rfl ⟨fun h c hc => ?_, fun h c hc => ?_⟩))
  · rw [← e c hc]; exact h c ((hcs c).2 hc)
  · rw [e c ((hcs c).1 hc)]; exact h c ((hcs c).1 hc)

/-- Every map `a ↦ u + v * a` can be exchanged with LAST and MEAN. -/
theorem decideBy_affine {nm : String} (hn : nm = "LAST" ∨ nm = "MEAN") (u v : ℝ) {xs : List ℝ} {extra : Nat} {w : ℝ}
    (h : decideBy nm xs extra = some w) : decideBy nm (xs.map fun a => u + v * a) extra = some (u + v * w) := by
  rcases hn with rfl | rfl
  · unfold decideBy at h ⊢
    rw [if_pos rfl] at h ⊢
    unfold decideLast at h ⊢
    rw [List.length_map]
    split at h
    · rename_i hlt
      rw [if_pos hlt, List.getElem?_map, h]; rfl
    · rename_i hlt
      rw [if_neg hlt, List.getElem?_map, h]; rfl
  · unfold decideBy at h ⊢
    rw [if_neg (by decide), if_pos rfl] at h ⊢
    unfold decideMean at h ⊢
    rw [List.length_map]
    have key : ∀ ys : List ℝ, (if ys = [] then none else some (total ys / Arith.lit ys.length)) = some w →
        (if ys.map (fun a => u + v * a) = [] then none
          else some (total (ys.map fun a => u + v * a) / Arith.lit (ys.map fun a => u + v * a).length)) = some (u + v * w) := by
      intro ys hy
      by_cases hz : ys = []
      · rw [if_pos hz] at hy; cases hy
      · rw [if_neg hz] at hy
        rw [if_neg (by simpa using hz)]
        cases hy
        have hlen : (0 : ℝ) < ys.length := by exact_mod_cast List.length_pos_iff.2 hz
        have hs : (ys.map fun a => u + v * a).sum = ys.length * u + v * ys.sum := by
          clear hz hlen h
          induction ys with
          | nil => simp
          | cons y ys ih => rw [List.map_cons, List.sum_cons, ih, List.sum_cons, List.length_cons]; push_cast; ring
        rw [total_sum, total_sum, hs, List.length_map]
        show some ((ys.length * u + v * ys.sum) / ((ys.length : ℤ) : ℝ)) = some (u + v * (ys.sum / ((ys.length : ℤ) : ℝ)))
        push_cast
        congr 1
        field_simp
    dsimp only at h ⊢
    split at h
    · rename_i hlt
      rw [if_pos hlt, ← List.map_take]
      exact key _ h
    · rename_i hlt
      rw [if_neg hlt]
      exact key _ h

theorem decideBy_turn {nm : String} {N : Net ℝ} {s : String → Bool} {c : String}
    (hn : s c = true → nm = "LAST" ∨ nm = "MEAN") {xs : List ℝ} {extra : Nat} {w : ℝ} (h : decideBy nm xs extra = some w) :
    decideBy nm (xs.map (turn N s c)) extra = some (turn N s c w) := by
  cases hs : s c with
  | false =>
    have e : turn N s c = id := by funext a; unfold turn; rw [hs]; rfl
    rw [e, List.map_id]
    exact h
  | true =>
    cases hk : N.concept c with
    | none =>
      have e : turn N s c = id := by funext a; unfold turn; rw [hs, hk]; rfl
      rw [e, List.map_id]
      exact h
    | some k =>
      have e : turn N s c = fun a => (if k.rescale then 1 else 0) + (-1) * a := by
        funext a
        unfold turn turned
        rw [hs, hk]
        dsimp only
        split <;> ring
      rw [e]
      exact decideBy_affine (hn hs) _ _ h

/-! ### C112 -/

/-- `n` has the settings of `m`, its concepts and relations with the concepts in `s` replaced by their opposites, and the
corresponding initial activations. -/
structure Turned (s : String → Bool) (m n : FCM ℝ) : Prop where
  keys : ∀ c, c ∈ n.topology.keys ↔ c ∈ m.topology.keys
  maxIter : n.maxIter = m.maxIter
  stop : n.stopAtStabilize = m.stopAtStabilize
  diff : n.stabilityDiff = m.stabilityDiff
  extra : n.extraSteps = m.extraSteps
  dec : n.decisionName = m.decisionName
  net : Opposite s m.net n.net
  start : ∀ c ∈ m.topology.keys, at' n.traj 0 c = turn m.net s c (at' m.traj 0 c)

/-- Iterative engine: if `m` returns, so does the map with opposite concepts, and it records the opposite values for the
concepts in `s` and the same values for the others, likewise in the end. -/
theorem C112_iterative_partial {s : String → Bool} {m n m' : FCM ℝ} (hm : CleanReachable m) (hn : CleanReachable n)
    (dm : m.debug = true) (dn : n.debug = true) (h : Turned s m n)
    (tame : ∀ c x f, m.topology.get? c = some x → x.fn = some f → TameArgs f)
    (start : ∀ c ∈ m.topology.keys, -1 ≤ at' m.traj 0 c ∧ at' m.traj 0 c ≤ 1)
    (ht : ∀ c ∈ m.topology.keys, s c = true → Turnable m.net c)
    (hd : m.decisionName = "EXITED" → ∀ c ∈ m.topology.keys, s c = false)
    (r : FCM.runInference true m = (.ok (), m')) :
    ∃ n', FCM.runInference true n = (.ok (), n') ∧ ∀ c ∈ m.topology.keys,
      n'.traj c = (m'.traj c).map (turn m.net s c) ∧
      n'.getConceptValue c = (m'.getConceptValue c).map (turn m.net s c) := by
  obtain ⟨len, hi⟩ := run_iter hm.clean.inv dm r
  have hlen : 0 < len := by have := hi.stops.above; omega
  have hrange : ∀ c ∈ m.topology.keys, ∀ t, t < len → -1 ≤ at' m'.traj t c ∧ at' m'.traj t c ≤ 1 := by
    intro c hc t htl
    have hl := (hi.run c hc).1
    refine (C07_iterative hm.reachable dm tame start r hc).1 _ ?_
    have e : at' m'.traj t c = (m'.traj c)[t]'(by omega) := by simp [at', List.getD_eq_getElem?_getD, hl, htl]
    rw [e]
    exact List.getElem_mem _
  have hrun := run_turn h.net (origins hm.reachable) hi.run hrange ht
  have hname : ∀ c ∈ m.topology.keys, s c = true → m.decisionName = "LAST" ∨ m.decisionName = "MEAN" := by
    intro c hc hs
    have hdec := hm.clean.inv.dec
    unfold Decision.getByName at hdec
    split at hdec
    · exact .inl ‹_›
    · split at hdec
      · exact .inr ‹_›
      · split at hdec
        · have := hd ‹_› c hc
          rw [hs] at this; cases this
        · cases hdec
  have hfin : ∀ c ∈ m.topology.keys, ∃ v, m'.getConceptValue c = some v ∧ decideBy m.decisionName (m'.traj c) m.extraSteps = some v := by
    intro c hc
    obtain ⟨x, v, hx, hv, hdv⟩ := hi.final c hc
    refine ⟨v, by simp [FCM.getConceptValue, hx, hv], (decFn_eq hm.clean.inv.dec _ _ _).1 ?_⟩
    rw [(hi.run c hc).1]; exact hdv
  have hruns : Runs n (fun c => (m'.traj c).map (turn m.net s c)) len := by
    refine ⟨fun c hc => ?_, fun c hc => hrun c ((h.keys c).1 hc)⟩
    have hc' := (h.keys c).1 hc
    rw [at'_map (by rw [(hi.run c hc').1]; exact hlen), (hi.init c hc').2, h.start c hc']
  have hends : Ends n (fun c => (m'.traj c).map (turn m.net s c)) len := by
    have hq : ∀ k, k ≤ len → _ := fun k hk => quiet_turn (M := m.net) (s := s) h.keys (fun c hc => (hi.run c hc).1)
      (maxIter := m.maxIter) (stop := m.stopAtStabilize) (d := m.stabilityDiff) hk hlen
    unfold Ends
    rw [h.maxIter, h.stop, h.diff, h.extra]
    have hst := hi.stops
    refine ⟨hst.above, fun k h1 h2 => (hq k (by omega)).2 (hst.window k h1 h2), fun l h1 h2 => ?_⟩
    obtain ⟨k, a, b, c⟩ := hst.least l h1 h2
    exact ⟨k, a, b, fun hk => c ((hq k (by omega)).1 hk)⟩
  have hdecn : ∀ c ∈ m.topology.keys, ∃ v, m'.getConceptValue c = some v ∧
      decideBy n.decisionName ((m'.traj c).map (turn m.net s c)) n.extraSteps = some (turn m.net s c v) := by
    intro c hc
    obtain ⟨v, h1, hv⟩ := hfin c hc
    rw [h.dec, h.extra]
    exact ⟨v, h1, decideBy_turn (hname c hc) hv⟩
  obtain ⟨n', hn'⟩ : ∃ n', FCM.runInference true n = (.ok (), n') :=
    run_returns hn.clean dn hruns.start hruns.run hends fun c hc =>
      (hdecn c ((h.keys c).1 hc)).imp' (turn m.net s c) fun v hv => hv.2
  have hrec := C111_records hn dn hn' hruns hends
  obtain ⟨b, hj⟩ := run_iter hn.clean.inv dn hn'
  refine ⟨n', hn', fun c hc => ⟨hrec c ((h.keys c).2 hc), ?_⟩⟩
  obtain ⟨v, h1, hv⟩ := hdecn c hc
  obtain ⟨x, w, hx, hw, hdw⟩ := hj.final c ((h.keys c).2 hc)
  have hl := (hj.run c ((h.keys c).2 hc)).1
  have e : decideBy n.decisionName (n'.traj c) n.extraSteps = some w :=
    (decFn_eq hn.clean.inv.dec _ _ _).1 (by rw [hl]; exact hdw)
  rw [hrec c ((h.keys c).2 hc), hv] at e
  cases e
  rw [h1]
  simp [FCM.getConceptValue, hx, hw]

/-! ### Which concepts can be replaced -/

/-- `sigmoid_hip` (or `tan_hip`) without rescaling, with inputs up to `B` short of the point where its exponent is cut off, and
`sigmoid` with rescaling. -/
def OddArgs (f : FnInfo ℝ) (rescale : Bool) (B : ℝ) : Prop := match f.fn, rescale with
  | .sigmoidHip, false => (f.args = [] ∧ 2 * B ≤ 500) ∨ ∃ l, f.args = [("lambda_val", .num l)] ∧ |l| * B ≤ 500
  | .sigmoid, true => f.args = [] ∨ ∃ l, f.args = [("lambda_val", .num l)]
  | _, _ => False

theorem sigmoidHip_odd {x l v B : ℝ} (hx : |x| ≤ B) (hB : |l| * B ≤ 500) (hv : sigmoidHip x l = .ok v) :
    sigmoidHip (-x) l = .ok (-v) := by
  rw [sigmoidHip_real] at hv ⊢
  obtain rfl := Except.ok.inj hv
  have hb : |l * x| ≤ 500 := by
    rw [abs_mul]
    exact (mul_le_mul_of_nonneg_left hx (abs_nonneg _)).trans hB
  obtain ⟨h1, h2⟩ := abs_le.1 hb
  rw [min_eq_right (by linarith), min_eq_right (by linarith)]
  congr 1
  have e : Real.exp (-(l * -x)) = (Real.exp (-(l * x)))⁻¹ := by rw [← Real.exp_neg]; congr 1; ring
  rw [e]
  have hp := Real.exp_pos (-(l * x))
  field_simp
  ring

theorem callActv_odd {f : FnInfo ℝ} {k : Concept ℝ} {B : ℝ} (h : OddArgs f k.rescale B)
    (hk : k.act = fun x => callActv f.fn x f.args) {x v : ℝ} (hx : |x| ≤ B) (hv : k.act x = .ok v) :
    k.act (-x) = .ok (turned k v) := by
  rw [hk] at hv ⊢
  unfold OddArgs at h
  unfold turned
  dsimp only at hv ⊢
  cases hf : f.fn <;> cases hr : k.rescale <;> rw [hf, hr] at h <;> simp only at h
  case sigmoidHip.false =>
    rw [hf] at hv
    unfold callActv at hv ⊢
    rw [if_neg (by simp)]
    rcases h with ⟨e, hB⟩ | ⟨l, e, hB⟩ <;> rw [e] at hv ⊢
    · exact sigmoidHip_odd (l := lit 2) hx (by simpa using hB) hv
    · exact sigmoidHip_odd hx hB hv
  case sigmoid.true =>
    rw [hf] at hv
    unfold callActv at hv ⊢
    rw [if_pos rfl]
    rcases h with e | ⟨l, e⟩ <;> rw [e] at hv ⊢
    · have h1 := sigmoid_real (-x) (lit 1 : ℝ)
      rw [show (1 - v) = _ from (C26_sigmoid_symm x (lit 1) hv h1).symm]
      exact h1
    · have h1 := sigmoid_real (-x) l
      rw [show (1 - v) = _ from (C26_sigmoid_symm x l hv h1).symm]
      exact h1

/-- In terms of the map: which concepts can be replaced by their opposites. -/
theorem C112_turnable {m : FCM ℝ} (hm : Reachable m) {c : String} {n : Node ℝ} {f : FnInfo ℝ} {ex : ExcFn × String} {um : Bool}
    (hn : m.topology.get? c = some n) (h1 : n.fn = some f) (h2 : n.exec = some ex) (h3 : n.useMem = some um)
    (h : OddArgs f (ex.2 == "PAPAGEORGIUS") (3 * ((m.arcList.map fun a => if a.dest = c then |a.weight| else 0).sum + 1))) :
    Turnable m.net c := by
  have hk : m.net.concept c = n.toSpec := by
    show (m.topology.get? c).bind _ = _
    rw [hn]
    rfl
  rw [toSpec_of h1 h2 h3] at hk
  refine ⟨_, hk, ?_, fun x hx v hv => callActv_odd h rfl ?_ hv⟩
  · dsimp only
    split
    · rename_i hz
      exfalso
      have hok : Activation.getFunctionByName f.name = some f.fn := (hm.inv.nodes c n hn).fn f h1
      rw [hz] at hok
      have hfz : f.fn = .fuzzy := (Option.some.inj hok).symm
      unfold OddArgs at h
      rw [hfz] at h
      exact h
    · rfl
  · refine hx.trans (le_of_eq ?_)
    unfold inflow FCM.net
    rw [List.map_map]
    rfl

/-! ### The vectorised engine -/

theorem opposed_ends (s : String → Bool) (r : Rel ℝ) : (opposed s r).origin = r.origin ∧ (opposed s r).dest = r.dest := by
  unfold opposed
  split <;> exact ⟨rfl, rfl⟩

theorem latest_opposed (s : String → Bool) : ∀ rs : List (Rel ℝ), latest (rs.map (opposed s)) = (latest rs).map (opposed s)
  | [] => rfl
  | r :: rs => by
    rw [List.map_cons]
    unfold latest
    have e : (∃ q ∈ rs.map (opposed s), q.origin = (opposed s r).origin ∧ q.dest = (opposed s r).dest) ↔
        ∃ q ∈ rs, q.origin = r.origin ∧ q.dest = r.dest := by
      simp only [List.mem_map, exists_exists_and_eq_and, (opposed_ends s _).1, (opposed_ends s _).2]
    by_cases h : ∃ q ∈ rs, q.origin = r.origin ∧ q.dest = r.dest
    · rw [if_pos h, if_pos (e.2 h), latest_opposed s rs]
    · rw [if_neg h, if_neg fun h' => h (e.1 h'), List.map_cons, latest_opposed s rs]

theorem opposite_vector {s : String → Bool} {M N : Net ℝ} (h : Opposite s M N) : Opposite s M.vector N.vector :=
  ⟨by unfold Net.vector; rw [h.concepts], by unfold Net.vector; rw [h.rels]; exact latest_opposed s M.rels⟩

theorem turn_vector (N : Net ℝ) (s : String → Bool) : turn N.vector s = turn N s := by
  funext c a
  unfold turn Net.vector
  dsimp only
  cases s c <;> cases N.concept c <;> rfl

theorem inflow_vector (N : Net ℝ) (c : String) : inflow N.vector c ≤ inflow N c := by
  unfold inflow
  refine List.Sublist.sum_le_sum ((latest_sublist N.rels).map _) fun x hx => ?_
  obtain ⟨r, -, rfl⟩ := List.mem_map.1 hx
  split <;> positivity

theorem turnable_vector {N : Net ℝ} {c : String} (h : Turnable N c) : Turnable N.vector c := by
  obtain ⟨k, hk, hd, ho⟩ := h
  refine ⟨k.vector, by unfold Net.vector; simp [hk], by unfold Concept.vector; simp [hd], fun x hx v hv => ?_⟩
  exact ho x (hx.trans (by linarith [inflow_vector N c])) v hv

/-- The endless runs correspond. -/
theorem orbit_turn {s : String → Bool} {m n : FCM ℝ} (hm : Vectorised m) (hn : Vectorised n) (h : Turned s m n)
    (ht : ∀ c ∈ m.topology.keys, s c = true → Turnable m.net c) : ∃ x z : Nat → String → ℝ,
      (∀ k ∈ m.topology.keys, x 0 k = at' m.traj 0 k) ∧ Orbit m.net.vector m.topology.keys x ∧
      (∀ t, ∀ k ∈ m.topology.keys, -1 ≤ x t k ∧ x t k ≤ 1) ∧
      (∀ k ∈ n.topology.keys, z 0 k = at' n.traj 0 k) ∧ Orbit n.net.vector n.topology.keys z ∧
      (∀ t, ∀ k ∈ n.topology.keys, -1 ≤ z t k ∧ z t k ≤ 1) ∧
      ∀ t, ∀ c ∈ m.topology.keys, z t c = turn m.net s c (x t c) := by
  obtain ⟨x, x0, xo, xr⟩ := vec_orbit hm.clean.clean hm.args hm.start
  obtain ⟨z, z0, zo, zr⟩ := vec_orbit hn.clean.clean hn.args hn.start
  refine ⟨x, z, x0, xo, xr, z0, zo, zr, fun t => ?_⟩
  induction t with
  | zero => exact fun c hc => by rw [z0 c ((h.keys c).2 hc), x0 c hc, h.start c hc]
  | succ t ih =>
    intro c hc
    have hO := origins_vector hm.clean.reachable
    have e1 := next_turn (opposite_vector h.net) (A := x t) (c := c) (fun r hr => xr t _ (hO r hr)) (xr t c hc)
      (fun hs => turnable_vector (ht c hc hs)) (xo t c hc)
    have e2 := zo t c ((h.keys c).2 hc)
    rw [turn_vector] at e1
    rw [next_congr (B := fun d => turn m.net s d (x t d)) (ih c hc) fun r hr => ?_, e1] at e2
    · simpa using e2.symm
    · refine ih _ ((h.keys _).1 ?_)
      exact origins_vector hn.clean.reachable r hr

/-- Vectorised engine: at every step both maps record, the values are opposite for the concepts in `s` and equal for the
others. -/
theorem C112_vectorised_partial {s : String → Bool} {m n m' n' : FCM ℝ} (hm : Vectorised m) (hn : Vectorised n) (h : Turned s m n)
    (ht : ∀ c ∈ m.topology.keys, s c = true → Turnable m.net c) (rm : FCM.runInference true m = (.ok (), m'))
    (rn : FCM.runInference true n = (.ok (), n')) {c : String} (hc : c ∈ m.topology.keys) {t : Nat}
    (h1 : t < (m'.traj c).length) (h2 : t < (n'.traj c).length) :
    at' n'.traj t c = turn m.net s c (at' m'.traj t c) := by
  obtain ⟨x, z, x0, xo, xr, z0, zo, zr, e⟩ := orbit_turn hm hn h ht
  obtain ⟨l, -, -, hrec⟩ := C105_records hm.clean hm.off hm.nonempty (fun c n f hn hf => (hm.args c n f hn hf).1.kw) x0 xo
    (not_two xr) rm
  obtain ⟨l', -, -, hrec'⟩ := C105_records hn.clean hn.off hn.nonempty (fun c x f hx hf => (hn.args c x f hx hf).1.kw) z0 zo
    (not_two zr) rn
  have hc' := (h.keys c).2 hc
  have a := hrec c hc
  have b := hrec' c hc'
  rw [a] at h1
  rw [b] at h2
  simp only [List.length_map, List.length_range] at h1 h2
  have e1 : at' m'.traj t c = x t c := by
    unfold at'
    rw [a, List.getD_eq_getElem?_getD, List.getElem?_map, List.getElem?_range h1]
    rfl
  have e2 : at' n'.traj t c = z t c := by
    unfold at'
    rw [b, List.getD_eq_getElem?_getD, List.getElem?_map, List.getElem?_range h2]
    rfl
  rw [e1, e2, e t c hc]

/-- Vectorised engine, all concepts replaced by their opposites: if the map returns, so does the opposite one, with
opposite records and opposite final values. -/
theorem C112_all_partial {s : String → Bool} {m n m' : FCM ℝ} (hm : Vectorised m) (hn : Vectorised n) (h : Turned s m n)
    (hall : ∀ c ∈ m.topology.keys, s c = true) (ht : ∀ c ∈ m.topology.keys, Turnable m.net c)
    (hd : m.decisionName ≠ "EXITED") (rm : FCM.runInference true m = (.ok (), m')) :
    ∃ n', FCM.runInference true n = (.ok (), n') ∧ ∀ c ∈ m.topology.keys,
      n'.traj c = (m'.traj c).map (turn m.net s c) ∧
      n'.getConceptValue c = (m'.getConceptValue c).map (turn m.net s c) := by
  obtain ⟨x, z, x0, xo, xr, z0, zo, zr, e⟩ := orbit_turn hm hn h fun c hc _ => ht c hc
  have kwm : KwArgs m := fun c n f hn hf => (hm.args c n f hn hf).1.kw
  have kwn : KwArgs n := fun c x f hx hf => (hn.args c x f hx hf).1.kw
  have hperm : n.topology.keys.Perm m.topology.keys :=
    (List.perm_ext_iff_of_nodup hn.clean.clean.inv.tnd hm.clean.clean.inv.tnd).2 h.keys
  have hneg : ∀ cs : List String, (∀ c ∈ cs, c ∈ m.topology.keys) → ∀ k,
      (cs.map (z k)).sum - (cs.map (z (k - 1))).sum = -((cs.map (x k)).sum - (cs.map (x (k - 1))).sum) := by
    intro cs
    induction cs with
    | nil => simp
    | cons c cs ih =>
      intro hcs k
      have ih := ih (fun d hd => hcs d (by simp [hd])) k
      have hc := hcs c (by simp)
      obtain ⟨kc, hk, -⟩ := ht c hc
      simp only [List.map_cons, List.sum_cons]
      rw [e k c hc, e (k - 1) c hc, turn_known hk, turn_known hk, hall c hc, if_pos rfl, if_pos rfl]
      have : turned kc (x k c) - turned kc (x (k - 1) c) = -(x k c - x (k - 1) c) := by
        unfold turned; split <;> ring
      linarith
  have hlev : Level n.topology.keys z n.stabilityDiff = Level m.topology.keys x m.stabilityDiff := by
    funext k
    apply propext
    rw [level_real, level_real, h.diff, (hperm.map _).sum_eq, (hperm.map _).sum_eq, hneg _ (fun c hc => hc) k, abs_neg]
  have hn' : ∃ n', FCM.runInference true n = (.ok (), n') := by
    have a := (C105_returns hm.clean hm.off hm.nonempty kwm hd x0 xo (not_two xr)).1 (by rw [rm])
    have b := (C105_returns hn.clean hn.off hn.nonempty kwn (by rw [h.dec]; exact hd) z0 zo (not_two zr)).2 (by
      rw [h.maxIter, h.extra, hlev]; exact a)
    exact ⟨_, by rw [← b]⟩
  obtain ⟨n', rn⟩ := hn'
  obtain ⟨l, -, hs, hrec⟩ := C105_records hm.clean hm.off hm.nonempty kwm x0 xo (not_two xr) rm
  obtain ⟨l', -, hs', hrec'⟩ := C105_records hn.clean hn.off hn.nonempty kwn z0 zo (not_two zr) rn
  rw [hlev, h.extra] at hs'
  have hl := hs.unique hs'
  subst hl
  have htr : ∀ c ∈ m.topology.keys, n'.traj c = (m'.traj c).map (turn m.net s c) := by
    intro c hc
    rw [hrec' c ((h.keys c).2 hc), hrec c hc, h.maxIter, List.map_map]
    exact List.map_congr_left fun t _ => e t c hc
  refine ⟨n', rn, fun c hc => ⟨htr c hc, ?_⟩⟩
  obtain ⟨v, h1, hv⟩ := C08_final_value hm.clean.reachable rm hc
  obtain ⟨w, h2, hw⟩ := C08_final_value hn.clean.reachable rn ((h.keys c).2 hc)
  have hname : m.decisionName = "LAST" ∨ m.decisionName = "MEAN" := by
    have hdec := hm.clean.clean.inv.dec
    unfold Decision.getByName at hdec
    split at hdec
    · exact .inl ‹_›
    · split at hdec
      · exact .inr ‹_›
      · cases hdec
  have hv' := decideBy_turn (N := m.net) (s := s) (c := c) (fun _ => hname) hv
  rw [htr c hc, h.dec, h.extra, hv'] at hw
  cases hw
  rw [h1, h2]
  rfl

/-! ### Concrete cases -/

namespace Ex

noncomputable def pairOps (d : Bool) (x y u v : ℝ) : List (Op ℝ) :=
  [.addConcept "a" {}, .addConcept "b" { excitation := some "PAPAGEORGIUS", activation := some "sigmoid" },
   .addConcept "c" { activation := some "saturation" }, .addRelation "a" "b" u, .addRelation "b" "c" v,
   .initConcept "a" x true, .initConcept "b" y true, .assignDebug d]

/-- a (sigmoid_hip) -u-> b (PAPAGEORGIUS, sigmoid) -v-> c (saturation); a starts at `x`, b at `y`, c at 0. -/
noncomputable def pair (d : Bool) (x y u v : ℝ) : FCM ℝ := runOps (pairOps d x y u v) plain0

theorem pair_clean (d : Bool) (x y u v : ℝ) : CleanReachable (pair d x y u v) :=
  cleanReachable_of (.new plain0_new) (pairOps d x y u v) rfl
theorem pair_keys (d : Bool) (x y u v : ℝ) : (pair d x y u v).topology.keys = ["a", "b", "c"] := rfl
theorem pair_arcs (d : Bool) (x y u v : ℝ) : (pair d x y u v).arcList = [⟨"b", u, "a"⟩, ⟨"c", v, "b"⟩] := rfl

theorem pair_a (d : Bool) (x y u v : ℝ) : ∃ o, (pair d x y u v).topology.get? "a" = some o ∧
    o.fn = some ⟨.sigmoidHip, "sigmoid_hip", []⟩ ∧ o.exec = some (.kosko, "KOSKO") ∧ o.useMem = some true ∧ o.active = true :=
  ⟨_, rfl, rfl, rfl, rfl, rfl⟩
theorem pair_b (d : Bool) (x y u v : ℝ) : ∃ o, (pair d x y u v).topology.get? "b" = some o ∧
    o.fn = some ⟨.sigmoid, "sigmoid", []⟩ ∧ o.exec = some (.papageorgius, "PAPAGEORGIUS") ∧ o.useMem = some true ∧ o.active = true :=
  ⟨_, rfl, rfl, rfl, rfl, rfl⟩
theorem pair_c (d : Bool) (x y u v : ℝ) : ∃ o, (pair d x y u v).topology.get? "c" = some o ∧
    o.fn = some ⟨.saturation, "saturation", []⟩ ∧ o.exec = some (.kosko, "KOSKO") ∧ o.useMem = some true ∧ o.active = true :=
  ⟨_, rfl, rfl, rfl, rfl, rfl⟩

theorem pair_cases {d : Bool} {x y u v : ℝ} {c : String} (h : c ∈ (pair d x y u v).topology.keys) : c = "a" ∨ c = "b" ∨ c = "c" := by
  rw [pair_keys] at h
  simpa using h

/-- The concepts of the map do not depend on weights and starts. -/
theorem pair_concept (d : Bool) (x y u v x' y' u' v' : ℝ) :
    (pair d x y u v).net.concept = (pair d x' y' u' v').net.concept := by
  funext c
  show ((pair d x y u v).topology.get? c).bind _ = ((pair d x' y' u' v').topology.get? c).bind _
  by_cases hc : c ∈ (pair d x y u v).topology.keys
  · rcases pair_cases hc with rfl | rfl | rfl
    · obtain ⟨o, g, f, e, u, w⟩ := pair_a d x y u v
      obtain ⟨o', g', f', e', u', w'⟩ := pair_a d x' y' u' v'
      rw [g, g']
      show o.toSpec = o'.toSpec
      rw [toSpec_of f e u, toSpec_of f' e' u', w, w']
      rfl
    · obtain ⟨o, g, f, e, u, w⟩ := pair_b d x y u v
      obtain ⟨o', g', f', e', u', w'⟩ := pair_b d x' y' u' v'
      rw [g, g']
      show o.toSpec = o'.toSpec
      rw [toSpec_of f e u, toSpec_of f' e' u', w, w']
      rfl
    · obtain ⟨o, g, f, e, u, w⟩ := pair_c d x y u v
      obtain ⟨o', g', f', e', u', w'⟩ := pair_c d x' y' u' v'
      rw [g, g']
      show o.toSpec = o'.toSpec
      rw [toSpec_of f e u, toSpec_of f' e' u', w, w']
      rfl
  · rw [(Dict.get?_eq_none_iff _ _).2 hc, (Dict.get?_eq_none_iff _ _).2 (by rw [pair_keys] at hc ⊢; exact hc)]

/-- b is replaced by its opposite. -/
def onlyB (c : String) : Bool := c == "b"

theorem pair_turn_b (d : Bool) (x y u v a : ℝ) : turn (pair d x y u v).net onlyB "b" a = 1 - a := by
  obtain ⟨o, g, f, e, w, -⟩ := pair_b d x y u v
  have hk : (pair d x y u v).net.concept "b" = o.toSpec := by simp [FCM.net, g]
  rw [toSpec_of f e w] at hk
  rw [turn_known hk]
  rfl

theorem turn_other {N : Net ℝ} {s : String → Bool} {c : String} (h : s c = false) (a : ℝ) : turn N s c a = a := by
  unfold turn; rw [h]

theorem pair_settings (d : Bool) (x y u v : ℝ) : (pair d x y u v).maxIter = plain0.maxIter ∧
    (pair d x y u v).stopAtStabilize = plain0.stopAtStabilize ∧ (pair d x y u v).stabilityDiff = plain0.stabilityDiff ∧
    (pair d x y u v).extraSteps = plain0.extraSteps ∧ (pair d x y u v).decisionName = plain0.decisionName :=
  ⟨rfl, rfl, rfl, rfl, rfl⟩
theorem pair_starts (d : Bool) (x y u v : ℝ) : at' (pair d x y u v).traj 0 "a" = x ∧ at' (pair d x y u v).traj 0 "b" = y ∧
    at' (pair d x y u v).traj 0 "c" = lit 0 := ⟨rfl, rfl, rfl⟩

theorem pair_turned (d : Bool) (x y u v : ℝ) : Turned onlyB (pair d x y u v) (pair d x (1 - y) (-u) (-v)) := by
  obtain ⟨a1, a2, a3, a4, a5⟩ := pair_settings d x y u v
  obtain ⟨b1, b2, b3, b4, b5⟩ := pair_settings d x (1 - y) (-u) (-v)
  obtain ⟨sa, sb, sc⟩ := pair_starts d x y u v
  obtain ⟨ta, tb, tc⟩ := pair_starts d x (1 - y) (-u) (-v)
  refine ⟨fun c => by rw [pair_keys, pair_keys], b1.trans a1.symm, b2.trans a2.symm, b3.trans a3.symm, b4.trans a4.symm,
    b5.trans a5.symm, ⟨pair_concept .., ?_⟩, fun c hc => ?_⟩
  · have ab : ¬ onlyB "a" = onlyB "b" := by decide
    have bc : ¬ onlyB "b" = onlyB "c" := by decide
    show ((pair d x (1 - y) (-u) (-v)).arcList.map Arc.toSpec) = ((pair d x y u v).arcList.map Arc.toSpec).map _
    rw [pair_arcs, pair_arcs]
    simp only [List.map_cons, List.map_nil, Arc.toSpec, opposed, if_neg ab, if_neg bc]
  · rcases pair_cases hc with rfl | rfl | rfl
    · rw [turn_other (by decide), sa, ta]
    · rw [pair_turn_b, sb, tb]
    · rw [turn_other (by decide), sc, tc]

theorem pair_args {d : Bool} {x y u v : ℝ} (c : String) (n : Node ℝ) (f : FnInfo ℝ)
    (hn : (pair d x y u v).topology.get? c = some n) (hf : n.fn = some f) : ProperArgs f ∧ TameArgs f := by
  rcases pair_cases (Dict.mem_keys_of_get? hn) with rfl | rfl | rfl
  · obtain ⟨o, g, f', -⟩ := pair_a d x y u v
    rw [g] at hn; cases hn; rw [f'] at hf; cases hf
    exact SlopeArgs.proper (L := 1) (.inl ⟨rfl, rfl⟩)
  · obtain ⟨o, g, f', -⟩ := pair_b d x y u v
    rw [g] at hn; cases hn; rw [f'] at hf; cases hf
    exact SlopeArgs.proper (L := 1/4) (.inl ⟨rfl, rfl⟩)
  · obtain ⟨o, g, f', -⟩ := pair_c d x y u v
    rw [g] at hn; cases hn; rw [f'] at hf; cases hf
    exact SlopeArgs.proper (L := 1) ⟨rfl, rfl⟩

theorem pair_start {d : Bool} {x y u v : ℝ} (hx : -1 ≤ x ∧ x ≤ 1) (hy : -1 ≤ y ∧ y ≤ 1) (c : String)
    (hc : c ∈ (pair d x y u v).topology.keys) : -1 ≤ at' (pair d x y u v).traj 0 c ∧ at' (pair d x y u v).traj 0 c ≤ 1 := by
  rcases pair_cases hc with rfl | rfl | rfl
  · exact hx
  · exact hy
  · show -1 ≤ (lit 0 : ℝ) ∧ (lit 0 : ℝ) ≤ 1
    norm_num

theorem pair_turnable {d : Bool} {x y u v : ℝ} (c : String) (hs : onlyB c = true) : Turnable (pair d x y u v).net c := by
  have : c = "b" := by simpa [onlyB] using hs
  subst this
  obtain ⟨o, g, f, e, w, -⟩ := pair_b d x y u v
  exact C112_turnable (pair_clean d x y u v).reachable g f e w (.inl rfl)

theorem pair_run (x y u v : ℝ) : ∃ m', FCM.runInference true (pair true x y u v) = (.ok (), m') :=
  C75_succeeds (pair_clean true x y u v) rfl (fun c n f hn hf => ⟨(pair_args c n f hn hf).1, fun hz => by
      rcases pair_cases (Dict.mem_keys_of_get? hn) with rfl | rfl | rfl
      · obtain ⟨o, g, f', -⟩ := pair_a true x y u v
        rw [g] at hn; cases hn; rw [f'] at hf; cases hf; exact absurd hz (show ¬ _ = _ by decide)
      · obtain ⟨o, g, f', -⟩ := pair_b true x y u v
        rw [g] at hn; cases hn; rw [f'] at hf; cases hf; exact absurd hz (show ¬ _ = _ by decide)
      · obtain ⟨o, g, f', -⟩ := pair_c true x y u v
        rw [g] at hn; cases hn; rw [f'] at hf; cases hf; exact absurd hz (show ¬ _ = _ by decide)⟩)
    (show "LAST" ≠ "EXITED" by decide)

/-- The opposite of b: `1 - y` and relations of opposite signs; a and c keep their values. -/
example {x y : ℝ} (hx : -1 ≤ x ∧ x ≤ 1) (hy : -1 ≤ y ∧ y ≤ 1) (u v : ℝ) : ∃ m' n',
    FCM.runInference true (pair true x y u v) = (.ok (), m') ∧
    FCM.runInference true (pair true x (1 - y) (-u) (-v)) = (.ok (), n') ∧
    n'.traj "b" = (m'.traj "b").map (fun a => 1 - a) ∧ n'.traj "a" = m'.traj "a" ∧ n'.traj "c" = m'.traj "c" := by
  obtain ⟨m', rm⟩ := pair_run x y u v
  obtain ⟨n', rn, h⟩ := C112_iterative_partial (pair_clean true x y u v) (pair_clean true x (1 - y) (-u) (-v)) rfl rfl
    (pair_turned true x y u v) (fun c n f hn hf => (pair_args c n f hn hf).2) (pair_start hx hy)
    (fun c _ hs => pair_turnable c hs) (fun h => absurd h (show ¬ "LAST" = "EXITED" by decide)) rm
  refine ⟨m', n', rm, rn, ?_, ?_, ?_⟩
  · rw [(h "b" (by rw [pair_keys]; simp)).1]
    exact List.map_congr_left fun a _ => pair_turn_b ..
  · rw [(h "a" (by rw [pair_keys]; simp)).1, show turn _ onlyB "a" = id from funext fun a => turn_other (by decide) a, List.map_id]
  · rw [(h "c" (by rw [pair_keys]; simp)).1, show turn _ onlyB "c" = id from funext fun a => turn_other (by decide) a, List.map_id]

/-! The vectorised engine. -/

theorem pair_vec {x y : ℝ} (hx : -1 ≤ x ∧ x ≤ 1) (hy : -1 ≤ y ∧ y ≤ 1) (u v : ℝ) : Vectorised (pair false x y u v) :=
  ⟨pair_clean false x y u v, rfl, fun h => by
    have := congrArg Dict.keys h
    rw [pair_keys] at this
    exact absurd this (by simp [Dict.keys]), pair_args, pair_start hx hy⟩

/-- Step by step, as long as both maps run. -/
example {x y : ℝ} (hx : -1 ≤ x ∧ x ≤ 1) (hy : 0 ≤ y ∧ y ≤ 1) (u v : ℝ) {m' n' : FCM ℝ}
    (rm : FCM.runInference true (pair false x y u v) = (.ok (), m'))
    (rn : FCM.runInference true (pair false x (1 - y) (-u) (-v)) = (.ok (), n'))
    {t : Nat} (h1 : t < (m'.traj "b").length) (h2 : t < (n'.traj "b").length) : at' n'.traj t "b" = 1 - at' m'.traj t "b" := by
  rw [C112_vectorised_partial (pair_vec hx ⟨by linarith, hy.2⟩ u v) (pair_vec hx ⟨by linarith, by linarith⟩ (-u) (-v))
    (pair_turned false x y u v) (fun c _ hs => pair_turnable c hs) rm rn (by rw [pair_keys]; simp) h1 h2]
  exact pair_turn_b ..

noncomputable def stillOps (x : ℝ) : List (Op ℝ) := [.addConcept "a" {}, .initConcept "a" x true, .assignDebug false]

/-- One concept, sigmoid_hip with memory: its value is repeated through the function. -/
noncomputable def still (x : ℝ) : FCM ℝ := runOps (stillOps x) plain0

theorem still_clean (x : ℝ) : CleanReachable (still x) := cleanReachable_of (.new plain0_new) (stillOps x) rfl
theorem still_keys (x : ℝ) : (still x).topology.keys = ["a"] := rfl
theorem still_arcs (x : ℝ) : (still x).arcList = [] := rfl
theorem still_a (x : ℝ) : ∃ o, (still x).topology.get? "a" = some o ∧ o.fn = some ⟨.sigmoidHip, "sigmoid_hip", []⟩ ∧
    o.exec = some (.kosko, "KOSKO") ∧ o.useMem = some true ∧ o.active = true := ⟨_, rfl, rfl, rfl, rfl, rfl⟩
theorem still_cases {x : ℝ} {c : String} (h : c ∈ (still x).topology.keys) : c = "a" := by
  rw [still_keys] at h
  simpa using h
theorem still_settings (x : ℝ) : (still x).maxIter = plain0.maxIter ∧ (still x).stopAtStabilize = plain0.stopAtStabilize ∧
    (still x).stabilityDiff = plain0.stabilityDiff ∧ (still x).extraSteps = plain0.extraSteps ∧
    (still x).decisionName = plain0.decisionName ∧ at' (still x).traj 0 "a" = x := ⟨rfl, rfl, rfl, rfl, rfl, rfl⟩

theorem still_known (x : ℝ) : ∃ k, (still x).net.concept "a" = some k ∧ k.rescale = false ∧ k.memory = true ∧ k.divisor = none ∧
    k.act = fun v => callActv .sigmoidHip v [] := by
  obtain ⟨o, g, f, e, w, -⟩ := still_a x
  have hk : (still x).net.concept "a" = o.toSpec := by simp [FCM.net, g]
  rw [toSpec_of f e w] at hk
  exact ⟨_, hk, rfl, rfl, rfl, rfl⟩

theorem still_concept (x y : ℝ) : (still x).net.concept = (still y).net.concept := by
  funext c
  by_cases hc : c ∈ (still x).topology.keys
  · obtain rfl := still_cases hc
    obtain ⟨o, g, f, e, u, w⟩ := still_a x
    obtain ⟨o', g', f', e', u', w'⟩ := still_a y
    have h1 : (still x).net.concept "a" = o.toSpec := by simp [FCM.net, g]
    have h2 : (still y).net.concept "a" = o'.toSpec := by simp [FCM.net, g']
    rw [h1, h2, toSpec_of f e u, toSpec_of f' e' u', w, w']
    rfl
  · have h1 : (still x).topology.get? c = none := (Dict.get?_eq_none_iff _ _).2 hc
    have h2 : (still y).topology.get? c = none := (Dict.get?_eq_none_iff _ _).2 (by rw [still_keys] at hc ⊢; exact hc)
    simp [FCM.net, h1, h2]

theorem still_turn (x a : ℝ) : turn (still x).net (fun _ => true) "a" a = -a := by
  obtain ⟨k, hk, hr, -⟩ := still_known x
  rw [turn_known hk]
  simp [turned, hr]

theorem still_turned (x : ℝ) : Turned (fun _ => true) (still x) (still (-x)) := by
  obtain ⟨a1, a2, a3, a4, a5, sa⟩ := still_settings x
  obtain ⟨b1, b2, b3, b4, b5, sb⟩ := still_settings (-x)
  refine ⟨fun c => by rw [still_keys, still_keys], b1.trans a1.symm, b2.trans a2.symm, b3.trans a3.symm, b4.trans a4.symm,
    b5.trans a5.symm, ⟨still_concept .., ?_⟩, fun c hc => ?_⟩
  · show ((still (-x)).arcList.map Arc.toSpec) = ((still x).arcList.map Arc.toSpec).map _
    rw [still_arcs, still_arcs]
    rfl
  · obtain rfl := still_cases hc
    rw [still_turn, sa, sb]

theorem still_vec {x : ℝ} (hx : -1 ≤ x ∧ x ≤ 1) : Vectorised (still x) := by
  refine ⟨still_clean x, rfl, fun h => ?_, fun c n f hn hf => ?_, fun c hc => ?_⟩
  · have := congrArg Dict.keys h
    rw [still_keys] at this
    cases this
  · obtain rfl := still_cases (Dict.mem_keys_of_get? hn)
    obtain ⟨o, g, f', -⟩ := still_a x
    rw [g] at hn; cases hn; rw [f'] at hf; cases hf
    exact SlopeArgs.proper (L := 1) (.inl ⟨rfl, rfl⟩)
  · obtain rfl := still_cases hc
    rw [(still_settings x).2.2.2.2.2]
    exact hx

theorem still_turnable (x : ℝ) : Turnable (still x).net "a" := by
  obtain ⟨o, g, f, e, w, -⟩ := still_a x
  refine C112_turnable (still_clean x).reachable g f e w (.inl ⟨rfl, ?_⟩)
  rw [still_arcs]
  norm_num

/-- Both ends of the scale: the map that starts at `-x` returns whenever the one that starts at `x` does. -/
example {x : ℝ} (hx : -1 ≤ x ∧ x ≤ 1) {m' : FCM ℝ} (rm : FCM.runInference true (still x) = (.ok (), m')) :
    ∃ n', FCM.runInference true (still (-x)) = (.ok (), n') ∧ n'.traj "a" = (m'.traj "a").map (- ·) := by
  obtain ⟨n', rn, h⟩ := C112_all_partial (still_vec hx) (still_vec ⟨by linarith, by linarith⟩) (still_turned x) (fun _ _ => rfl)
    (fun c hc => by obtain rfl := still_cases hc; exact still_turnable x) (show "LAST" ≠ "EXITED" by decide) rm
  refine ⟨n', rn, ?_⟩
  rw [(h "a" (by rw [still_keys]; simp)).1]
  exact List.map_congr_left fun a _ => still_turn ..

/-! The bound on the exponent. -/

noncomputable def steepOps (x : ℝ) : List (Op ℝ) := 
  [.addConcept "a" { activation := some "sigmoid_hip", kwargs := [("lambda_val", .num 1000)] }, .initConcept "a" x true]

/-- The same with lambda 1000. -/
noncomputable def steep (x : ℝ) : FCM ℝ := runOps (steepOps x) plain0

theorem steep_clean (x : ℝ) : CleanReachable (steep x) := cleanReachable_of (.new plain0_new) (steepOps x) rfl
theorem steep_keys (x : ℝ) : (steep x).topology.keys = ["a"] := rfl
theorem steep_arcs (x : ℝ) : (steep x).arcList = [] := rfl
theorem steep_a (x : ℝ) : ∃ o, (steep x).topology.get? "a" = some o ∧
    o.fn = some ⟨.sigmoidHip, "sigmoid_hip", [("lambda_val", .num 1000)]⟩ ∧
    o.exec = some (.kosko, "KOSKO") ∧ o.useMem = some true ∧ o.active = true := ⟨_, rfl, rfl, rfl, rfl, rfl⟩
theorem steep_cases {x : ℝ} {c : String} (h : c ∈ (steep x).topology.keys) : c = "a" := by
  rw [steep_keys] at h
  simpa using h
theorem steep_settings (x : ℝ) : (steep x).maxIter = plain0.maxIter ∧ (steep x).stopAtStabilize = plain0.stopAtStabilize ∧
    (steep x).stabilityDiff = plain0.stabilityDiff ∧ (steep x).extraSteps = plain0.extraSteps ∧
    (steep x).decisionName = plain0.decisionName ∧ at' (steep x).traj 0 "a" = x := ⟨rfl, rfl, rfl, rfl, rfl, rfl⟩

theorem steep_known (x : ℝ) : ∃ k, (steep x).net.concept "a" = some k ∧ k.rescale = false ∧ k.memory = true ∧ k.divisor = none ∧
    k.act = fun v => sigmoidHip v 1000 := by
  obtain ⟨o, g, f, e, w, -⟩ := steep_a x
  have hk : (steep x).net.concept "a" = o.toSpec := by simp [FCM.net, g]
  rw [toSpec_of f e w] at hk
  exact ⟨_, hk, rfl, rfl, rfl, rfl⟩

theorem steep_concept (x y : ℝ) : (steep x).net.concept = (steep y).net.concept := by
  funext c
  by_cases hc : c ∈ (steep x).topology.keys
  · obtain rfl := steep_cases hc
    obtain ⟨o, g, f, e, u, w⟩ := steep_a x
    obtain ⟨o', g', f', e', u', w'⟩ := steep_a y
    have h1 : (steep x).net.concept "a" = o.toSpec := by simp [FCM.net, g]
    have h2 : (steep y).net.concept "a" = o'.toSpec := by simp [FCM.net, g']
    rw [h1, h2, toSpec_of f e u, toSpec_of f' e' u', w, w']
    rfl
  · have h1 : (steep x).topology.get? c = none := (Dict.get?_eq_none_iff _ _).2 hc
    have h2 : (steep y).topology.get? c = none := (Dict.get?_eq_none_iff _ _).2 (by rw [steep_keys] at hc ⊢; exact hc)
    simp [FCM.net, h1, h2]

theorem steep_turn (x a : ℝ) : turn (steep x).net (fun _ => true) "a" a = -a := by
  obtain ⟨k, hk, hr, -⟩ := steep_known x
  rw [turn_known hk]
  simp [turned, hr]

theorem steep_turned (x : ℝ) : Turned (fun _ => true) (steep x) (steep (-x)) := by
  obtain ⟨a1, a2, a3, a4, a5, sa⟩ := steep_settings x
  obtain ⟨b1, b2, b3, b4, b5, sb⟩ := steep_settings (-x)
  refine ⟨fun c => by rw [steep_keys, steep_keys], b1.trans a1.symm, b2.trans a2.symm, b3.trans a3.symm, b4.trans a4.symm,
    b5.trans a5.symm, ⟨steep_concept .., ?_⟩, fun c hc => ?_⟩
  · show ((steep (-x)).arcList.map Arc.toSpec) = ((steep x).arcList.map Arc.toSpec).map _
    rw [steep_arcs, steep_arcs]
    rfl
  · obtain rfl := steep_cases hc
    rw [steep_turn, sa, sb]

theorem steep_args {x : ℝ} (c : String) (n : Node ℝ) (f : FnInfo ℝ)
    (hn : (steep x).topology.get? c = some n) (hf : n.fn = some f) :
    n.exec = some (.kosko, "KOSKO") ∧ f = ⟨.sigmoidHip, "sigmoid_hip", [("lambda_val", .num 1000)]⟩ := by
  obtain rfl := steep_cases (Dict.mem_keys_of_get? hn)
  obtain ⟨o, g, f', e, -⟩ := steep_a x
  rw [g] at hn; cases hn; rw [f'] at hf; cases hf
  exact ⟨e, rfl⟩

theorem steep_proper {x : ℝ} (c : String) (n : Node ℝ) (f : FnInfo ℝ)
    (hn : (steep x).topology.get? c = some n) (hf : n.fn = some f) : ProperArgs f ∧ TameArgs f := by
  obtain ⟨-, rfl⟩ := steep_args c n f hn hf
  exact SlopeArgs.proper (L := 500) (.inr ⟨1000, rfl, by norm_num⟩)

theorem steep_run (x : ℝ) : ∃ m', FCM.runInference true (steep x) = (.ok (), m') :=
  C75_succeeds (steep_clean x) rfl (fun c n f hn hf => ⟨(steep_proper c n f hn hf).1, fun hz => by
      obtain ⟨-, rfl⟩ := steep_args c n f hn hf
      exact absurd hz (show ¬ _ = _ by decide)⟩)
    (show "LAST" ≠ "EXITED" by decide)

/-- The second value. -/
theorem steep_second {x : ℝ} {m' : FCM ℝ} (r : FCM.runInference true (steep x) = (.ok (), m')) :
    1 < (m'.traj "a").length ∧ sigmoidHip x 1000 = .ok (at' m'.traj 1 "a") := by
  obtain ⟨len, hi⟩ := run_iter (steep_clean x).clean.inv rfl r
  have hex : (steep x).extraSteps = 5 := rfl
  have ha := hi.stops.above
  rw [hex] at ha
  have hk : "a" ∈ (steep x).topology.keys := by rw [steep_keys]; simp
  obtain ⟨hl, hs⟩ := hi.run "a" hk
  refine ⟨by omega, ?_⟩
  have h1 := hs 0 (by omega)
  obtain ⟨k, hc, hr, hm, hd, hact⟩ := steep_known x
  have hrels : (steep x).net.rels = [] := by
    show ((steep x).arcList.map Arc.toSpec) = []
    rw [steep_arcs]; rfl
  have h0 : at' m'.traj 0 "a" = x := by rw [(hi.init "a" hk).2, (steep_settings x).2.2.2.2.2]
  unfold next inputs at h1
  rw [hc, hrels] at h1
  simp only [Option.map_some, List.filterMap_nil, hm, hd, hact, if_true, source, hr, h0, Option.some.injEq] at h1
  rw [← h1]
  show _ = sigmoidHip ((lit 0 : ℝ) + x) 1000
  simp

end Ex

/-- The claim without a bound on the exponent. -/
def C112_full : Prop := ∀ (s : String → Bool) (m n m' : FCM ℝ), CleanReachable m → CleanReachable n → m.debug = true →
  n.debug = true → Turned s m n →
  (∀ c x f, m.topology.get? c = some x → x.fn = some f → TameArgs f) →
  (∀ c ∈ m.topology.keys, -1 ≤ at' m.traj 0 c ∧ at' m.traj 0 c ≤ 1) →
  (∀ c x f e, m.topology.get? c = some x → s c = true → x.fn = some f → x.exec = some e → ∃ B, OddArgs f (e.2 == "PAPAGEORGIUS") B) →
  m.decisionName ≠ "EXITED" → FCM.runInference true m = (.ok (), m') →
  ∃ n', FCM.runInference true n = (.ok (), n') ∧ ∀ c ∈ m.topology.keys, n'.traj c = (m'.traj c).map (turn m.net s c)

/-- It is false: sigmoid_hip cuts the exponent off on one side only, at 500. With lambda 1000 the value 1 is followed by
`(1 - e^-1000)/(1 + e^-1000)` and the value -1 by `(1 - e^500)/(1 + e^500)`. -/
theorem C112_counterexample : ¬ C112_full := by
  intro h
  obtain ⟨m', rm⟩ := Ex.steep_run 1
  obtain ⟨n', rn, ht⟩ := h (fun _ => true) (Ex.steep 1) (Ex.steep (-1)) m' (Ex.steep_clean 1) (Ex.steep_clean (-1)) rfl rfl
    (Ex.steep_turned 1) (fun c n f hn hf => (Ex.steep_proper c n f hn hf).2)
    (fun c hc => by
      obtain rfl := Ex.steep_cases hc
      rw [(Ex.steep_settings 1).2.2.2.2.2]
      norm_num)
    (fun c n f e hn _ hf he => by
      obtain ⟨h1, rfl⟩ := Ex.steep_args c n f hn hf
      rw [h1] at he
      cases he
      exact ⟨0, .inr ⟨1000, rfl, by norm_num⟩⟩)
    (show "LAST" ≠ "EXITED" by decide) rm
  obtain ⟨l1, e1⟩ := Ex.steep_second rm
  obtain ⟨l2, e2⟩ := Ex.steep_second rn
  have ha := ht "a" (by rw [Ex.steep_keys]; simp)
  have hv : at' n'.traj 1 "a" = -at' m'.traj 1 "a" := by
    unfold at'
    rw [ha, List.getD_eq_getElem?_getD, List.getElem?_map, List.getD_eq_getElem?_getD, List.getElem?_eq_getElem l1]
    exact Ex.steep_turn ..
  rw [sigmoidHip_real] at e1 e2
  have f1 := Except.ok.inj e1
  have f2 := Except.ok.inj e2
  have g1 : min (500 : ℝ) (-(1000 * 1)) = -(1000 * 1) := min_eq_right (by norm_num)
  have g2 : min (500 : ℝ) (-(1000 * -1)) = 500 := min_eq_left (by norm_num)
  rw [← f1, ← f2, g1, g2] at hv
  have p := Real.exp_pos 500
  have q := Real.exp_pos (-(1000 * 1))
  rw [div_eq_iff (by positivity), ← neg_div, div_mul_eq_mul_div, eq_div_iff (by positivity)] at hv
  have hpq : Real.exp 500 * Real.exp (-(1000 * 1)) = 1 := by linarith
  rw [← Real.exp_add, Real.exp_eq_one_iff] at hpq
  norm_num at hpq

end PyFCM
