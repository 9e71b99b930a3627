import Verif.Props.VecReturns
/-
C105: what the vectorised engine computes on every map.
-/
namespace PyFCM
open Arith Spec

section Runs
variable {α : Type} [Arith α] [Exact α]

/-- C105, one step of the engine from column `x` of its matrix: it is the recurrence of `m.net.vector`. -/
theorem C105_step {m : FCM α} (hr : CleanReachable m) (hf : KwArgs m) {c : Cache α} (hp : m.prepare = .ok c)
    {x : List α} (hx : x.length = m.topology.length) {i : Nat} (hi : i < m.topology.length) (v : α) :
    vecNode c (List.zipWith desat c.avoidSaturation x) i = .ok v ↔
    next m.net.vector (fun k => x.getD (m.topology.keys.idxOf k) (lit 0)) (m.topology.keys[i]'(by simpa [Dict.keys] using hi)) =
      some (.ok v) :=
  vecNode_vector hr.clean hp hf hx hi v

/-- C105: what is recorded. -/
theorem C105_records {m m' : FCM α} (hr : CleanReachable m) (hd : m.debug = false) (hne : m.topology ≠ []) (hf : KwArgs m)
    {x : Nat → String → α} (h0 : ∀ k ∈ m.topology.keys, x 0 k = at' m.traj 0 k)
    (hx : Orbit m.net.vector m.topology.keys x)
    (h2 : ∀ t, ∀ k ∈ m.topology.keys, (x t k =? lit 2) = false) (h : FCM.runInference true m = (.ok (), m')) :
    ∃ l : Nat, (l : Int) ≤ m.maxIter ∧ StopsAt (Level m.topology.keys x m.stabilityDiff) m.extraSteps l ∧
      ∀ k ∈ m.topology.keys, m'.traj k = (List.range (if (l : Int) < m.maxIter then l else l - 1)).map (x · k) :=
  vec_records hr.clean hr.reachable.coherent hd hne hf h0 hx h2 h

/-- C105: when the engine returns. -/
theorem C105_returns {m : FCM α} (hr : CleanReachable m) (hd : m.debug = false) (hne : m.topology ≠ []) (hf : KwArgs m)
    (hdec : m.decisionName ≠ "EXITED")
    {x : Nat → String → α} (h0 : ∀ k ∈ m.topology.keys, x 0 k = at' m.traj 0 k)
    (hx : Orbit m.net.vector m.topology.keys x)
    (h2 : ∀ t, ∀ k ∈ m.topology.keys, (x t k =? lit 2) = false) :
    (FCM.runInference true m).1 = .ok () ↔
      ∃ l : Nat, (l : Int) ≤ m.maxIter ∧ m.extraSteps < l ∧
        ∀ s, l - m.extraSteps ≤ s → s < l → Level m.topology.keys x m.stabilityDiff s :=
  vec_returns hr.clean hr.reachable.coherent hd hne hf hdec h0 hx h2

/-- C105: when the engine returns, also with EXITED, which finds no value if `extra_steps + 1` states are recorded. -/
theorem C105_decides {m : FCM α} (hr : CleanReachable m) (hd : m.debug = false) (hne : m.topology ≠ []) (hf : KwArgs m)
    {x : Nat → String → α} (h0 : ∀ k ∈ m.topology.keys, x 0 k = at' m.traj 0 k)
    (hx : Orbit m.net.vector m.topology.keys x)
    (h2 : ∀ t, ∀ k ∈ m.topology.keys, (x t k =? lit 2) = false) :
    (FCM.runInference true m).1 = .ok () ↔
      ∃ l : Nat, (l : Int) ≤ m.maxIter ∧ StopsAt (Level m.topology.keys x m.stabilityDiff) m.extraSteps l ∧
        (m.decisionName = "EXITED" → (if (l : Int) < m.maxIter then l else l - 1) ≠ m.extraSteps + 1) :=
  vec_returns_iff hr.clean hr.reachable.coherent hd hne hf h0 hx h2

/-- C105: a map that is at rest from the start cannot be run with EXITED if more than `extra_steps + 1` iterations are
allowed. -/
theorem C105_rest {m : FCM α} (hr : CleanReachable m) (hd : m.debug = false) (hne : m.topology ≠ []) (hf : KwArgs m)
    (hdec : m.decisionName = "EXITED") (hmax : (m.extraSteps : Int) + 1 < m.maxIter)
    {x : Nat → String → α} (h0 : ∀ k ∈ m.topology.keys, x 0 k = at' m.traj 0 k)
    (hx : Orbit m.net.vector m.topology.keys x)
    (h2 : ∀ t, ∀ k ∈ m.topology.keys, (x t k =? lit 2) = false)
    (hl : ∀ s, 0 < s → s ≤ m.extraSteps → Level m.topology.keys x m.stabilityDiff s) :
    ∃ e, (FCM.runInference true m).1 = .error e := by
  cases h : (FCM.runInference true m).1 with
  | error e => exact ⟨e, rfl⟩
  | ok u =>
    obtain ⟨l, -, hst, hex⟩ := (C105_decides hr hd hne hf h0 hx h2).1 h
    have hab := hst.above
    rcases Nat.lt_or_ge (m.extraSteps + 1) l with g | g
    · obtain ⟨s, s1, s2, s3⟩ := hst.least (m.extraSteps + 1) (by omega) g
      exact absurd (hl s (by omega) (by omega)) s3
    · obtain rfl : l = m.extraSteps + 1 := by omega
      have := hex hdec
      rw [if_pos (by push_cast; omega)] at this
      exact absurd rfl this

end Runs

/-- C105, real arithmetic: the run exists for every map whose functions have proper parameters and that starts in
[-1,1], stays there, decides whether the engine returns, and is what is recorded. -/
theorem C105_real {m : FCM ℝ} (hr : CleanReachable m) (hd : m.debug = false) (hne : m.topology ≠ [])
    (hdec : m.decisionName ≠ "EXITED")
    (hn : ∀ c n f, m.topology.get? c = some n → n.fn = some f → ProperArgs f ∧ TameArgs f)
    (h0 : ∀ c ∈ m.topology.keys, -1 ≤ at' m.traj 0 c ∧ at' m.traj 0 c ≤ 1) :
    ∃ x, (∀ k ∈ m.topology.keys, x 0 k = at' m.traj 0 k) ∧ Orbit m.net.vector m.topology.keys x ∧
      (∀ t, ∀ k ∈ m.topology.keys, -1 ≤ x t k ∧ x t k ≤ 1) ∧
      ((FCM.runInference true m).1 = .ok () ↔ ∃ l : Nat, (l : Int) ≤ m.maxIter ∧ m.extraSteps < l ∧
        ∀ s, l - m.extraSteps ≤ s → s < l →
          |(m.topology.keys.map (x s)).sum - (m.topology.keys.map (x (s - 1))).sum| < m.stabilityDiff) ∧
      ((FCM.runInference true m).1 = .ok () → ∃ l : Nat, (l : Int) ≤ m.maxIter ∧
        StopsAt (fun s => |(m.topology.keys.map (x s)).sum - (m.topology.keys.map (x (s - 1))).sum| < m.stabilityDiff)
          m.extraSteps l ∧
        ∀ k ∈ m.topology.keys, (FCM.runInference true m).2.traj k =
          (List.range (if (l : Int) < m.maxIter then l else l - 1)).map (x · k)) := by
  obtain ⟨x, e0, hx, hrange⟩ := vec_orbit hr.clean hn h0
  have hk : KwArgs m := fun c n f a b => (hn c n f a b).1.kw
  have hl : Level m.topology.keys x m.stabilityDiff =
      fun s => |(m.topology.keys.map (x s)).sum - (m.topology.keys.map (x (s - 1))).sum| < m.stabilityDiff :=
    funext fun s => propext level_real
  refine ⟨x, e0, hx, hrange, ?_, fun h => ?_⟩
  · rw [C105_returns hr hd hne hk hdec e0 hx (not_two hrange), hl]
  · rw [← hl]
    exact C105_records hr hd hne hk e0 hx (not_two hrange) (by rw [← h])

/-- Of relations no two of which have both ends in common all count. -/
theorem latest_all {α : Type} [Arith α] : ∀ {l : List (Rel α)}, l.Pairwise (fun r s => ¬ (s.origin = r.origin ∧ s.dest = r.dest)) →
    latest l = l
  | [], _ => rfl
  | r :: rs, h => by
    rw [List.pairwise_cons] at h
    unfold latest
    rw [if_neg (by rintro ⟨s, hs, e⟩; exact h.1 s hs e), latest_all h.2]

/-- C105: the three differences are the only ones.  If all concepts are active, no divisor is 0 or negative, and no two relations join
the same concepts in the same direction, the engine sees the map as it is. -/
theorem C105_same {α : Type} [Arith α] {N : Net α} (ha : ∀ c k, N.concept c = some k → k.active = true)
    (hd : ∀ c k d, N.concept c = some k → k.divisor = some d → (lit 0 <? d) = true)
    (hp : N.rels.Pairwise fun r s => ¬ (s.origin = r.origin ∧ s.dest = r.dest)) : N.vector = N := by
  have e : (fun c => (N.concept c).map Concept.vector) = N.concept := by
    funext c
    cases h : N.concept c with
    | none => rfl
    | some k =>
      have h1 := ha c k h
      have h2 : k.divisor.filter (fun d => lit 0 <? d) = k.divisor := by
        cases hk : k.divisor with
        | none => rfl
        | some d => exact Option.filter_eq_some_iff.2 ⟨rfl, hd c k d h hk⟩
      simp only [Option.map_some, Concept.vector, h2, ← h1]
  unfold Net.vector
  rw [e, latest_all hp]

namespace Ex

/-- An inactive concept, two relations between the same concepts, and a fuzzy concept whose relations sum to a negative number. -/
def odds : List (Op ℚ) :=
  [.addConcept "a" { isActive := some false, useMemory := some true }, .addConcept "b" { useMemory := some false },
   .addConcept "f" { type := some TYPE_FUZZY, useMemory := some false,
                     activationDict := some [("membership", .list [0, 1]), ("val_list", .list [-1, 1])] },
   .addRelation "a" "b" (1/4), .addRelation "a" "b" (1/2), .addRelation "a" "f" (-1/2), .initConcept "a" 1 true,
   .assignMaxIter 9, .assignDebug false]

def odd : FCM ℚ := runOps odds sat0
theorem odd_clean : CleanReachable odd := cleanReachable_of (.new sat0_new) odds (by decide +kernel)
theorem odd_keys : odd.topology.keys = ["a", "b", "f"] := by decide +kernel
theorem odd_kw : KwArgs odd := by
  have h : (odd.topology.all fun p => p.2.fn.all kwOkB) = true := by decide +kernel
  intro c n f hn hf
  have := List.all_eq_true.1 h _ (Dict.get?_mem hn)
  simp only [hf, Option.all_some] at this
  exact kwOk_of this

/-- Its run: after one step b is at 1/2, the last of the two weights, and f at -1/2; a acts though inactive. -/
def oddRun (t : Nat) (c : String) : ℚ :=
  if c = "a" then 1 else if t = 0 then 0 else if c = "b" then 1/2 else -1/2

theorem odd_first : ∀ c ∈ ["a", "b", "f"], next odd.net.vector (oddRun 0) c = some (.ok (oddRun 1 c)) := by decide +kernel
theorem odd_second : ∀ c ∈ ["a", "b", "f"], next odd.net.vector (oddRun 1) c = some (.ok (oddRun 1 c)) := by decide +kernel

theorem odd_orbit : Orbit odd.net.vector odd.topology.keys oddRun := by
  intro t c hc
  rw [odd_keys] at hc
  have e : ∀ s, oddRun (s + 1) = oddRun 1 := fun s => by funext c; simp [oddRun]
  cases t with
  | zero => exact odd_first c hc
  | succ t => rw [e, e]; exact odd_second c hc

theorem odd_start : ∀ k ∈ odd.topology.keys, oddRun 0 k = at' odd.traj 0 k := by
  rw [odd_keys]
  decide +kernel

theorem odd_two : ∀ t, ∀ k ∈ odd.topology.keys, (oddRun t k =? lit 2) = false := by
  have e : ∀ s, oddRun (s + 1) = oddRun 1 := fun s => by funext c; simp [oddRun]
  have h0 : ∀ k ∈ ["a", "b", "f"], (oddRun 0 k =? lit 2) = false := by decide +kernel
  have h1 : ∀ k ∈ ["a", "b", "f"], (oddRun 1 k =? lit 2) = false := by decide +kernel
  intro t k hk
  rw [odd_keys] at hk
  cases t with
  | zero => exact h0 k hk
  | succ t => rw [e]; exact h1 k hk

theorem odd_returns : (FCM.runInference true odd).1 = .ok () := by decide +kernel

/-- The iterative engine, by contrast, leaves b at 0. -/
theorem odd_iter : next odd.net (oddRun 0) "b" = some (.ok 0) := by decide +kernel

end Ex

example : ∃ l : Nat, (l : Int) ≤ 9 ∧ StopsAt (Level Ex.odd.topology.keys Ex.oddRun Ex.odd.stabilityDiff) Ex.odd.extraSteps l ∧
    ∀ k ∈ Ex.odd.topology.keys, (FCM.runInference true Ex.odd).2.traj k =
      (List.range (if (l : Int) < 9 then l else l - 1)).map (Ex.oddRun · k) :=
  C105_records Ex.odd_clean rfl (by intro h; have := congrArg Dict.keys h; rw [Ex.odd_keys] at this; cases this) Ex.odd_kw
    Ex.odd_start Ex.odd_orbit Ex.odd_two (by rw [← Ex.odd_returns])

namespace Ex

/-- One concept at rest, EXITED, nine iterations. -/
def stills : List (Op ℚ) :=
  [.addConcept "a" { useMemory := some true }, .initConcept "a" (1/2) true, .assignMaxIter 9, .assignDebug false,
   .setMapDecisionFunction "EXITED"]
def stillE : FCM ℚ := runOps stills sat0
theorem stillE_clean : CleanReachable stillE := cleanReachable_of (.new sat0_new) stills (by decide +kernel)
theorem stillE_extra : stillE.extraSteps = 2 := by decide +kernel
theorem stillE_max : stillE.maxIter = 9 := by decide +kernel
theorem stillE_dec : stillE.decisionName = "EXITED" := by decide +kernel

/-- The same with three iterations allowed: the last state is not recorded, and EXITED takes the maximum of all of them. -/
def stillT : FCM ℚ := (Op.assignMaxIter 3).run stillE |>.2
theorem stillT_clean : CleanReachable stillT := cleanReachable_of stillE_clean [.assignMaxIter 3] rfl
theorem stillT_returns : (FCM.runInference true stillT).1 = .ok () := by decide +kernel
theorem stillE_keys : stillE.topology.keys = ["a"] := by decide +kernel
theorem stillE_kw : KwArgs stillE := by
  have h : (stillE.topology.all fun p => p.2.fn.all kwOkB) = true := by decide +kernel
  intro c n f hn hf
  have := List.all_eq_true.1 h _ (Dict.get?_mem hn)
  simp only [hf, Option.all_some] at this
  exact kwOk_of this
theorem stillE_next : ∀ c ∈ ["a"], next stillE.net.vector (fun _ => (1/2 : ℚ)) c = some (.ok (1/2)) := by decide +kernel
theorem stillE_level : Level ["a"] (fun _ _ => (1/2 : ℚ)) stillE.stabilityDiff 1 := by
  unfold Level
  decide +kernel
theorem stillE_two : ∀ k ∈ ["a"], ((fun _ => (1/2 : ℚ)) k =? lit 2) = false := by decide +kernel
theorem stillE_start : ∀ k ∈ ["a"], (1/2 : ℚ) = at' stillE.traj 0 k := by decide +kernel

end Ex

example : ∃ e, (FCM.runInference true Ex.stillE).1 = .error e :=
  C105_rest (x := fun _ _ => 1/2) Ex.stillE_clean rfl
    (by intro h; have := congrArg Dict.keys h; rw [Ex.stillE_keys] at this; cases this) Ex.stillE_kw
    Ex.stillE_dec (by rw [Ex.stillE_extra, Ex.stillE_max]; decide) (by rw [Ex.stillE_keys]; exact Ex.stillE_start)
    (by rw [Ex.stillE_keys]; exact fun t => Ex.stillE_next) (by rw [Ex.stillE_keys]; exact fun t => Ex.stillE_two)
    (by rw [Ex.stillE_keys]; exact fun s _ _ => Ex.stillE_level)

/-- With three iterations the engine returns. -/
example : ∃ l : Nat, (l : Int) ≤ Ex.stillT.maxIter ∧
    StopsAt (Level Ex.stillT.topology.keys (fun _ _ => 1/2) Ex.stillT.stabilityDiff) Ex.stillT.extraSteps l ∧
    (Ex.stillT.decisionName = "EXITED" → (if (l : Int) < Ex.stillT.maxIter then l else l - 1) ≠ Ex.stillT.extraSteps + 1) :=
  (C105_decides (m := Ex.stillT) (x := fun _ _ => 1/2) Ex.stillT_clean rfl
    (by intro h; have := congrArg Dict.keys h; rw [show Ex.stillT.topology.keys = ["a"] from Ex.stillE_keys] at this; cases this) Ex.stillE_kw
    (by rw [show Ex.stillT.topology.keys = ["a"] from Ex.stillE_keys]; exact Ex.stillE_start)
    (by rw [show Ex.stillT.topology.keys = ["a"] from Ex.stillE_keys]; exact fun t => Ex.stillE_next)
    (by rw [show Ex.stillT.topology.keys = ["a"] from Ex.stillE_keys]; exact fun t => Ex.stillE_two)).1 Ex.stillT_returns

/-- All hypotheses of `C105_real` hold of the two sigmoid concepts of C78, whatever their start in [-1,1]. -/
example {x : ℝ} (h1 : -1 ≤ x) (h2 : x ≤ 1) :=
  C105_real (Ex.vflat_clean x) rfl (by intro h; have := congrArg Dict.keys h; rw [Ex.vflat_keys] at this; cases this)
    (show "LAST" ≠ "EXITED" by decide)
    (fun c k f a b => by
      obtain ⟨f', ex, um, L, g1, g2, g3, g4, -⟩ := Ex.vflat_flat x c k a
      rw [b] at g1
      cases g1
      exact g4.proper)
    (Ex.vflat_start h1 h2)

end PyFCM
