import Verif.Props.Lump
import Verif.Props.Cycles
import Mathlib.Algebra.BigOperators.Group.Finset.Basic
import Mathlib.Algebra.Order.BigOperators.Group.Finset
/-
C125: maps in which influence is mutual.
-/
namespace PyFCM
open Arith Spec

/-! ### C125: in a map of two- and three-valued concepts whose influence is mutual every cycle has length one or two -/

/-- How strongly the activation of `d` acts on `c`: the sum of the weights of the relations from `d` to `c`, twice that if `d` is
rescaled to [-1,1], and nothing if `d` is inactive. -/
def Spec.coupling {α : Type} [Arith α] (N : Net α) (d c : String) : α :=
  match N.concept d with
  | some o => if o.active then
      (if o.rescale then lit 2 else lit 1) * total (N.rels.filterMap fun r => if r.origin = d ∧ r.dest = c then some r.weight else none)
    else lit 0
  | none => lit 0

/-- Any two concepts act on each other with the same strength. -/
def Spec.Mutual {α : Type} [Arith α] (N : Net α) (cs : List String) : Prop :=
  ∀ c ∈ cs, ∀ d ∈ cs, coupling N d c = coupling N c d

/-- Every concept is held at least as strongly by itself, through its memory and its relations to itself, as by all other
concepts together. -/
def Spec.Anchored (N : Net ℝ) (cs : List String) : Prop :=
  ∀ c ∈ cs, ∃ k, N.concept c = some k ∧
    ((cs.filter (· ≠ c)).map fun d => |coupling N d c|).sum ≤
      coupling N c c + (if k.memory then (if k.rescale then 2 else 1) else 0)

/-! ### The energy -/

section
variable {S : Finset String} {K : String → String → ℝ} {b : String → ℝ} {P : String → ℝ → ℝ}

/-- The input of `c` is linear in the activations. -/
noncomputable def fieldAt (S : Finset String) (K : String → String → ℝ) (b : String → ℝ) (y : String → ℝ) (c : String) : ℝ :=
  ∑ d ∈ S, K d c * y d + b c

/-- The energy of two consecutive states. -/
noncomputable def energy (S : Finset String) (K : String → String → ℝ) (b : String → ℝ) (P : String → ℝ → ℝ) (y z : String → ℝ) : ℝ :=
  ∑ c ∈ S, (P c (y c) - y c * fieldAt S K b z c) + ∑ c ∈ S, (P c (z c) - b c * z c)

theorem energy_comm (hK : ∀ c ∈ S, ∀ d ∈ S, K d c = K c d) (y z : String → ℝ) : energy S K b P y z = energy S K b P z y := by
  unfold energy fieldAt
  have e : ∑ c ∈ S, y c * ∑ d ∈ S, K d c * z d = ∑ c ∈ S, z c * ∑ d ∈ S, K d c * y d := by
    simp only [Finset.mul_sum]
    rw [Finset.sum_comm]
    refine Finset.sum_congr rfl fun c hc => Finset.sum_congr rfl fun d hd => ?_
    rw [hK d hd c hc]
    ring
  simp only [mul_add, Finset.sum_sub_distrib, Finset.sum_add_distrib, e]
  have e1 : ∀ w : String → ℝ, ∑ c ∈ S, w c * b c = ∑ c ∈ S, b c * w c := fun w => Finset.sum_congr rfl fun c _ => mul_comm _ _
  rw [e1 y, e1 z]
  ring

/-- `v` is the best answer to the input `h`, and the least one. -/
def Best (p : ℝ → ℝ) (h v u : ℝ) : Prop := u * h - p u ≤ v * h - p v ∧ (u * h - p u = v * h - p v → v ≤ u)

theorem energy_le {x y z : String → ℝ} (hK : ∀ c ∈ S, ∀ d ∈ S, K d c = K c d)
    (hb : ∀ c ∈ S, Best (P c) (fieldAt S K b y c) (z c) (x c)) :
    energy S K b P z y ≤ energy S K b P y x ∧ (energy S K b P z y = energy S K b P y x → ∀ c ∈ S, z c ≤ x c) := by
  rw [energy_comm hK y x]
  have hle : ∀ c ∈ S, P c (z c) - z c * fieldAt S K b y c ≤ P c (x c) - x c * fieldAt S K b y c := by
    intro c hc
    have := (hb c hc).1
    linarith
  unfold energy
  constructor
  · have := Finset.sum_le_sum hle
    linarith
  · intro e
    have e' : ∑ c ∈ S, (P c (z c) - z c * fieldAt S K b y c) = ∑ c ∈ S, (P c (x c) - x c * fieldAt S K b y c) := by linarith
    intro c hc
    have := (Finset.sum_eq_sum_iff_of_le hle).1 e' c hc
    exact (hb c hc).2 (by linarith)

/-- A sequence of states that repeats after `p` steps repeats after two. -/
theorem two_steps {x : Nat → String → ℝ} (hK : ∀ c ∈ S, ∀ d ∈ S, K d c = K c d) {a n p : Nat} (hp : 1 ≤ p)
    (hbest : ∀ s, a ≤ s → s + 2 ≤ n → ∀ c ∈ S, Best (P c) (fieldAt S K b (x (s + 1)) c) (x (s + 2) c) (x s c))
    (hper : ∀ s, a ≤ s → s + p ≤ n → ∀ c ∈ S, x (s + p) c = x s c) {t : Nat} (hat : a + p ≤ t + 1) (hn : t + 2 ≤ n) :
    ∀ c ∈ S, x (t + 2) c = x t c := by
  set E : Nat → ℝ := fun s => energy S K b P (x (s + 1)) (x s) with hE
  have step : ∀ s, a ≤ s → s + 2 ≤ n → E (s + 1) ≤ E s ∧ (E (s + 1) = E s → ∀ c ∈ S, x (s + 2) c ≤ x s c) := fun s h1 h2 =>
    energy_le hK (hbest s h1 h2)
  have congr : ∀ y y' z z' : String → ℝ, (∀ c ∈ S, y c = y' c) → (∀ c ∈ S, z c = z' c) → energy S K b P y z = energy S K b P y' z' := by
    intro y y' z z' h1 h2
    unfold energy
    have hf : ∀ c, fieldAt S K b z c = fieldAt S K b z' c := by
      intro c
      unfold fieldAt
      rw [Finset.sum_congr rfl fun d hd => by rw [h2 d hd]]
    exact congrArg₂ (· + ·) (Finset.sum_congr rfl fun c hc => by rw [h1 c hc, hf c])
      (Finset.sum_congr rfl fun c hc => by rw [h2 c hc])
  obtain ⟨u, hu⟩ : ∃ u, t + 1 = u + p := ⟨t + 1 - p, by omega⟩
  have hau : a ≤ u := by omega
  have hEp : E (u + p) = E u := by
    refine congr _ _ _ _ (fun c hc => ?_) (fun c hc => hper u hau (by omega) c hc)
    rw [show u + p + 1 = (u + 1) + p by omega]
    exact hper (u + 1) (by omega) (by omega) c hc
  have anti : ∀ k, k ≤ p → E (u + k) ≤ E u ∧ E (u + p) ≤ E (u + (p - k)) := by
    intro k
    induction k with
    | zero => intro _; exact ⟨le_refl _, le_refl _⟩
    | succ k ih =>
      intro hk
      obtain ⟨i1, i2⟩ := ih (by omega)
      refine ⟨((step (u + k) (by omega) (by omega)).1).trans i1, i2.trans ?_⟩
      have := (step (u + (p - (k + 1))) (by omega) (by omega)).1
      rwa [show u + (p - (k + 1)) + 1 = u + (p - k) by omega] at this
  have const : ∀ k, k ≤ p → E (u + k) = E u := by
    intro k hk
    refine le_antisymm (anti k hk).1 ?_
    have := (anti (p - k) (by omega)).2
    rw [show p - (p - k) = k by omega, hEp] at this
    exact this
  have down : ∀ k, k < p → ∀ c ∈ S, x (u + k + 2) c ≤ x (u + k) c := by
    intro k hk
    refine (step (u + k) (by omega) (by omega)).2 ?_
    rw [show u + k + 1 = u + (k + 1) by omega, const _ (by omega), const _ (by omega)]
  intro c hc
  have sum : ∀ k, k ≤ p → x (u + k + 1) c + x (u + k) c ≤ x (u + 1) c + x u c := by
    intro k
    induction k with
    | zero => intro _; exact le_refl _
    | succ k ih =>
      intro hk
      have h1 := ih (by omega)
      have h2 := down k (by omega) c hc
      rw [show u + (k + 1) + 1 = u + k + 2 by omega, show u + (k + 1) = u + k + 1 by omega]
      linarith
  have h1 := sum (p - 1) (by omega)
  have h2 := down (p - 1) (by omega) c hc
  have h3 := hper u hau (by omega) c hc
  have h4 := hper (u + 1) (by omega) (by omega) c hc
  rw [show u + (p - 1) + 1 = u + p by omega] at h1
  rw [show u + (p - 1) + 2 = u + 1 + p by omega] at h2
  have ht : t + 2 = u + 1 + p := by omega
  have ht' : t = u + (p - 1) := by omega
  rw [ht, h4]
  rw [ht']
  rw [h4] at h2
  linarith

/-- Dominance makes the quadratic form non-negative. -/
theorem form_nonneg (hK : ∀ c ∈ S, ∀ d ∈ S, K d c = K c d) (hdom : ∀ c ∈ S, ∑ d ∈ S.erase c, |K d c| ≤ K c c) (z : String → ℝ) :
    0 ≤ ∑ c ∈ S, z c * ∑ d ∈ S, K d c * z d := by
  have split : ∀ c ∈ S, z c * ∑ d ∈ S, K d c * z d = K c c * z c ^ 2 + ∑ d ∈ S.erase c, K d c * z d * z c := by
    intro c hc
    rw [← Finset.add_sum_erase S _ hc, mul_add, Finset.mul_sum]
    congr 1
    · ring
    · exact Finset.sum_congr rfl fun d _ => by ring
  rw [Finset.sum_congr rfl split, Finset.sum_add_distrib]
  have low : ∀ c ∈ S, -(∑ d ∈ S.erase c, |K d c| * ((z d ^ 2 + z c ^ 2) / 2)) ≤ ∑ d ∈ S.erase c, K d c * z d * z c := by
    intro c _
    rw [← Finset.sum_neg_distrib]
    refine Finset.sum_le_sum fun d _ => ?_
    rcases abs_cases (K d c) with ⟨e, h⟩ | ⟨e, h⟩ <;> rw [e] <;> nlinarith [sq_nonneg (z d + z c), sq_nonneg (z d - z c)]
  have swap : ∑ c ∈ S, ∑ d ∈ S.erase c, |K d c| * z d ^ 2 = ∑ c ∈ S, ∑ d ∈ S.erase c, |K d c| * z c ^ 2 := by
    have e : ∀ f : String → String → ℝ, ∑ c ∈ S, ∑ d ∈ S.erase c, f c d = ∑ c ∈ S, ∑ d ∈ S, if d ≠ c then f c d else 0 := by
      intro f
      refine Finset.sum_congr rfl fun c _ => ?_
      rw [← Finset.sum_filter, Finset.filter_ne']
    rw [e, e, Finset.sum_comm]
    refine Finset.sum_congr rfl fun c hc => Finset.sum_congr rfl fun d hd => ?_
    by_cases h : c = d
    · simp [h]
    · rw [if_pos h, if_pos fun h' => h h'.symm, hK d hd c hc]
  have dom : ∑ c ∈ S, (∑ d ∈ S.erase c, |K d c|) * z c ^ 2 ≤ ∑ c ∈ S, K c c * z c ^ 2 :=
    Finset.sum_le_sum fun c hc => mul_le_mul_of_nonneg_right (hdom c hc) (sq_nonneg _)
  have tot : ∑ c ∈ S, ∑ d ∈ S.erase c, |K d c| * ((z d ^ 2 + z c ^ 2) / 2) = ∑ c ∈ S, (∑ d ∈ S.erase c, |K d c|) * z c ^ 2 := by
    have : ∀ c ∈ S, ∑ d ∈ S.erase c, |K d c| * ((z d ^ 2 + z c ^ 2) / 2) =
        (∑ d ∈ S.erase c, |K d c| * z d ^ 2) / 2 + (∑ d ∈ S.erase c, |K d c| * z c ^ 2) / 2 := by
      intro c _
      rw [Finset.sum_div, Finset.sum_div, ← Finset.sum_add_distrib]
      exact Finset.sum_congr rfl fun d _ => by ring
    rw [Finset.sum_congr rfl this, Finset.sum_add_distrib, ← Finset.sum_div, ← Finset.sum_div, swap]
    simp only [Finset.sum_mul]
    ring
  have := Finset.sum_le_sum low
  rw [Finset.sum_neg_distrib, tot] at this
  linarith

/-- Two states that follow each other are equal if the form is non-negative. -/
theorem no_swing {y z : String → ℝ} (hpos : ∀ w : String → ℝ, 0 ≤ ∑ c ∈ S, w c * ∑ d ∈ S, K d c * w d)
    (h1 : ∀ c ∈ S, Best (P c) (fieldAt S K b z c) (y c) (z c)) (h2 : ∀ c ∈ S, Best (P c) (fieldAt S K b y c) (z c) (y c)) :
    ∀ c ∈ S, y c = z c := by
  have e : ∀ c, fieldAt S K b y c - fieldAt S K b z c = ∑ d ∈ S, K d c * (y d - z d) := by
    intro c
    unfold fieldAt
    simp only [mul_sub, Finset.sum_sub_distrib]
    ring
  have hle : ∀ c ∈ S, (y c - z c) * ∑ d ∈ S, K d c * (y d - z d) ≤ 0 := by
    intro c hc
    rw [← e]
    have := (h1 c hc).1
    have := (h2 c hc).1
    linarith
  have hz : ∑ c ∈ S, (y c - z c) * ∑ d ∈ S, K d c * (y d - z d) = 0 :=
    le_antisymm (Finset.sum_nonpos hle) (hpos fun c => y c - z c)
  intro c hc
  have h0 := (Finset.sum_eq_zero_iff_of_nonpos hle).1 hz c hc
  rw [← e] at h0
  obtain ⟨a1, a2⟩ := h1 c hc
  obtain ⟨b1, b2⟩ := h2 c hc
  exact le_antisymm (a2 (by linarith)) (b2 (by linarith))

end

/-! ### The input of a concept -/

/-- The sum of the weights from `d` to `c`. -/
noncomputable def weightsOf (N : Net ℝ) (d c : String) : ℝ :=
  total (N.rels.filterMap fun r => if r.origin = d ∧ r.dest = c then some r.weight else none)

/-- What is subtracted from the input of `c` because `d` is rescaled. -/
noncomputable def offset (N : Net ℝ) (d c : String) : ℝ :=
  match N.concept d with
  | some o => if o.active = true ∧ o.rescale = true then weightsOf N d c else 0
  | none => 0

/-- How strongly `c` acts on itself by its memory. -/
def recall (N : Net ℝ) (c : String) : ℝ :=
  match N.concept c with
  | some k => if k.memory then (if k.rescale then 2 else 1) else 0
  | none => 0

def recallOffset (N : Net ℝ) (c : String) : ℝ :=
  match N.concept c with
  | some k => if k.memory = true ∧ k.rescale = true then 1 else 0
  | none => 0

theorem input_terms {N : Net ℝ} (A : String → ℝ) (d c : String) :
    emits N A d * total (N.rels.filterMap fun r =>
      if r.dest = c ∧ id r.origin = d ∧ (N.concept r.origin).any (fun o => o.active) = true then some r.weight else none) =
      coupling N d c * A d - offset N d c := by
  unfold emits coupling offset
  cases ho : N.concept d with
  | none => simp
  | some o =>
    dsimp only
    cases ha : o.active with
    | false =>
      have : (N.rels.filterMap fun r =>
          if r.dest = c ∧ id r.origin = d ∧ (N.concept r.origin).any (fun o => o.active) = true then some r.weight else none) = [] := by
        rw [List.filterMap_eq_nil_iff]
        intro r _
        rw [if_neg]
        rintro ⟨-, h1, h2⟩
        rw [show r.origin = d from h1, ho] at h2
        simp [ha] at h2
      rw [this]
      simp [total]
    | true =>
      have : (N.rels.filterMap fun r =>
          if r.dest = c ∧ id r.origin = d ∧ (N.concept r.origin).any (fun o => o.active) = true then some r.weight else none) =
          N.rels.filterMap fun r => if r.origin = d ∧ r.dest = c then some r.weight else none := by
        refine List.filterMap_congr fun r _ => if_congr ⟨fun ⟨h1, h2, _⟩ => ⟨h2, h1⟩, fun ⟨h1, h2⟩ => ⟨h2, h1, ?_⟩⟩ rfl rfl
        rw [h1, ho]
        exact ha
      rw [this]
      unfold source weightsOf
      cases o.rescale <;> simp <;> ring

theorem next_field {N : Net ℝ} {cs : List String} (hnd : cs.Nodup) (hor : ∀ r ∈ N.rels, r.origin ∈ cs) (A : String → ℝ)
    {c : String} (hc : c ∈ cs) {k : Concept ℝ} (hk : N.concept c = some k) (hdiv : k.divisor = none) :
    next N A c = some (k.act (fieldAt cs.toFinset (fun d c => coupling N d c + if d = c then recall N c else 0)
      (fun c => -(∑ d ∈ cs.toFinset, offset N d c) - recallOffset N c) A c)) := by
  unfold next
  rw [hk, Option.map_some, hdiv]
  dsimp only
  congr 2
  have hin : total (inputs N A c) = ∑ d ∈ cs.toFinset, (coupling N d c * A d - offset N d c) := by
    unfold inputs
    rw [total_groups (h := id) (S := emits N A) hnd N.rels hor (fun r _ o ho => by unfold emits; rw [id, ho]), total_real,
      List.map_congr_left fun d _ => input_terms A d c, List.sum_toFinset _ hnd]
  have hmem : (if k.memory = true then total (inputs N A c) + source k (A c) else total (inputs N A c)) =
      total (inputs N A c) + recall N c * A c - recallOffset N c := by
    unfold recall recallOffset source
    rw [hk]
    dsimp only
    cases k.memory <;> cases k.rescale <;> simp
    ring
  rw [hmem, hin]
  unfold fieldAt
  simp only [add_mul, Finset.sum_add_distrib, Finset.sum_sub_distrib, ite_mul, zero_mul]
  rw [Finset.sum_ite_eq' cs.toFinset c, if_pos (List.mem_toFinset.2 hc)]
  ring

/-! ### Two- and three-valued functions -/

/-- The potential of the two-valued function is 0, that of the three-valued one is such that its thresholds are ties. -/
noncomputable def potential (m : FCM ℝ) (c : String) (u : ℝ) : ℝ :=
  match (m.topology.get? c).bind (·.fn) with
  | some f => if f.name = "threestate" then u * u / 3 + u / 6 else 0
  | none => 0

theorem best_step {m : FCM ℝ} (hm : Reachable m) (hs : Stepwise m) {c : String} {n : Node ℝ} {f : FnInfo ℝ}
    (hn : m.topology.get? c = some n) (hf : n.fn = some f) {x v u : ℝ} (h : callActv f.fn x f.args = .ok v)
    (hu : u ∈ valuesAt m c) : Best (potential m c) x v u := by
  obtain ⟨f', hf', hname⟩ := hs c n hn
  rw [hf] at hf'
  cases hf'
  have hok : Activation.getFunctionByName f.name = some f.fn := (hm.inv.nodes c n hn).fn f hf
  unfold valuesAt at hu
  rw [hn] at hu
  simp only [Option.bind_some, hf] at hu
  have e2 : (dec 1 2 : ℝ) = 1/2 := by norm_num [dec]
  rcases hname with e | e
  · have hp : potential m c = fun _ => 0 := by
      funext u
      unfold potential
      rw [hn, Option.bind_some, hf]
      dsimp only
      rw [e, if_neg (by decide)]
    rw [hp]
    rw [e] at hok hu
    have hok := (Option.some.inj hok).symm
    rw [hok] at h
    unfold callActv at h
    simp only at h
    split at h <;> cases h
    change u ∈ [lit 0, lit 1] at hu
    simp only [real_lit, List.mem_cons, List.not_mem_nil, or_false, Int.cast_zero, Int.cast_one] at hu
    unfold Best bistate
    simp only [real_lit, real_le, Int.cast_zero, Int.cast_one]
    split <;> rcases hu with rfl | rfl <;> constructor <;> intros <;> linarith
  · have hp : potential m c = fun u => u * u / 3 + u / 6 := by
      funext u
      unfold potential
      rw [hn, Option.bind_some, hf]
      dsimp only
      rw [e, if_pos rfl]
    rw [hp]
    rw [e] at hok hu
    have hok := (Option.some.inj hok).symm
    rw [hok] at h
    unfold callActv at h
    simp only at h
    split at h <;> cases h
    change u ∈ [lit 0, dec 1 2, lit 1] at hu
    rw [e2] at hu
    simp only [real_lit, List.mem_cons, List.not_mem_nil, or_false, Int.cast_zero, Int.cast_one] at hu
    unfold Best threestate
    rw [e2]
    simp only [real_lit, real_le, Int.cast_zero, Int.cast_one, Int.cast_ofNat]
    split
    · rcases hu with rfl | rfl | rfl <;> constructor <;> intros <;> linarith
    · split <;> rcases hu with rfl | rfl | rfl <;> constructor <;> intros <;> linarith

/-- The matrix and the constant of the input of the concepts. -/
noncomputable def strength (N : Net ℝ) (d c : String) : ℝ := coupling N d c + if d = c then recall N c else 0

noncomputable def bias (N : Net ℝ) (cs : List String) (c : String) : ℝ := -(∑ d ∈ cs.toFinset, offset N d c) - recallOffset N c

theorem strength_comm {N : Net ℝ} {cs : List String} (h : Mutual N cs) : ∀ c ∈ cs.toFinset, ∀ d ∈ cs.toFinset, strength N d c = strength N c d := by
  intro c hc d hd
  unfold strength
  rw [h c (List.mem_toFinset.1 hc) d (List.mem_toFinset.1 hd)]
  by_cases e : d = c
  · subst e; rfl
  · rw [if_neg e, if_neg fun h => e h.symm]

theorem strength_dom {N : Net ℝ} {cs : List String} (hnd : cs.Nodup) (h : Anchored N cs) :
    ∀ c ∈ cs.toFinset, ∑ d ∈ cs.toFinset.erase c, |strength N d c| ≤ strength N c c := by
  intro c hc
  obtain ⟨k, hk, hle⟩ := h c (List.mem_toFinset.1 hc)
  have e1 : strength N c c = coupling N c c + (if k.memory then (if k.rescale then 2 else 1) else 0) := by
    unfold strength recall
    rw [if_pos rfl, hk]
  have e2 : ∑ d ∈ cs.toFinset.erase c, |strength N d c| = ((cs.filter (· ≠ c)).map fun d => |coupling N d c|).sum := by
    rw [← List.sum_toFinset _ (hnd.filter _)]
    have : cs.toFinset.erase c = (cs.filter (· ≠ c)).toFinset := by
      ext d
      simp [and_comm]
    rw [this]
    refine Finset.sum_congr rfl fun d hd => ?_
    have hne : d ≠ c := by simpa using (List.mem_filter.1 (List.mem_toFinset.1 hd)).2
    unfold strength
    rw [if_neg hne, add_zero]
  rw [e1, e2]
  exact hle

/-- How `N` is related to the map: the functions are the same and divisors are not added. -/
def SameActs (m : FCM ℝ) (N : Net ℝ) : Prop :=
  ∀ c k, N.concept c = some k → ∃ k0, m.net.concept c = some k0 ∧ k.act = k0.act ∧ (k0.divisor = none → k.divisor = none)

/-- In a run each state is the best answer to the one before it. -/
theorem run_best {m : FCM ℝ} (hm : Reachable m) (hs : Stepwise m) {N : Net ℝ} (hN : SameActs m N)
    (hor : ∀ r ∈ N.rels, r.origin ∈ m.topology.keys) {traj : String → List ℝ} {len : Nat}
    (hrun : IsRun N m.topology.keys traj len) {s q : Nat} (hs1 : s + 1 < len) (hq : 1 ≤ q) (hq' : q < len) {c : String}
    (hc : c ∈ m.topology.keys) : Best (potential m c)
      (fieldAt m.topology.keys.toFinset (strength N) (bias N m.topology.keys) (at' traj s) c) (at' traj (s + 1) c) (at' traj q c) := by
  have hnx := (hrun c hc).2 s hs1
  have hnx' := hnx
  unfold next at hnx'
  obtain ⟨k, hk, -⟩ := Option.map_eq_some_iff.1 hnx'
  obtain ⟨k0, h0, hact, hdiv⟩ := hN c k hk
  obtain ⟨n, hn, hsp⟩ := Option.bind_eq_some_iff.1 (show (m.topology.get? c).bind Node.toSpec = some k0 from h0)
  obtain ⟨f, hf, hact0⟩ := toSpec_act hsp
  have hdiv0 : k0.divisor = none := by
    obtain ⟨f', hf', hname⟩ := hs c n hn
    rw [hf] at hf'
    cases hf'
    unfold Node.toSpec at hsp
    rw [hf] at hsp
    split at hsp
    · rename_i f2 _ _ hf2
      cases hf2
      cases hsp
      dsimp only
      rw [if_neg]
      rcases hname with e | e <;> rw [e] <;> decide
    · cases hsp
  have hval : at' traj q c ∈ valuesAt m c := by
    obtain ⟨q, rfl⟩ : ∃ u, q = u + 1 := ⟨q - 1, by omega⟩
    exact next_values hm hs (fun c k hk => by obtain ⟨k0, h1, h2, -⟩ := hN c k hk; exact ⟨k0, h1, h2⟩) ((hrun c hc).2 q hq')
  rw [next_field hm.inv.tnd hor _ hc hk (hdiv hdiv0), hact, hact0] at hnx
  exact best_step hm hs hn hf (Option.some.inj hnx) hval

theorem run_two {m : FCM ℝ} (hm : Reachable m) (hs : Stepwise m) {N : Net ℝ} (hN : SameActs m N)
    (hor : ∀ r ∈ N.rels, r.origin ∈ m.topology.keys) (hmut : Mutual N m.topology.keys) {traj : String → List ℝ} {len : Nat}
    (hrun : IsRun N m.topology.keys traj len) {a p : Nat} (ha : 1 ≤ a) (hp : 1 ≤ p)
    (hper : ∀ c ∈ m.topology.keys, ∀ t, a ≤ t → t + p < len → at' traj (t + p) c = at' traj t c)
    {t : Nat} (ht : a + p ≤ t + 1) (hl : t + 2 < len) {c : String} (hc : c ∈ m.topology.keys) :
    at' traj (t + 2) c = at' traj t c := by
  refine two_steps (S := m.topology.keys.toFinset) (K := strength N) (b := bias N m.topology.keys) (P := potential m)
    (x := fun s c => at' traj s c) (n := len - 1) (a := a) (p := p) (strength_comm hmut) hp ?_ ?_ ht (by omega) c
    (List.mem_toFinset.2 hc)
  · intro s h1 h2 c hc
    exact run_best hm hs hN hor hrun (by omega) (by omega) (by omega) (List.mem_toFinset.1 hc)
  · intro s h1 h2 c hc
    exact hper c (List.mem_toFinset.1 hc) s h1 (by omega)

theorem run_still {m : FCM ℝ} (hm : Reachable m) (hs : Stepwise m) {N : Net ℝ} (hN : SameActs m N)
    (hor : ∀ r ∈ N.rels, r.origin ∈ m.topology.keys) (hmut : Mutual N m.topology.keys) (hanc : Anchored N m.topology.keys)
    {traj : String → List ℝ} {len : Nat} (hrun : IsRun N m.topology.keys traj len) {t : Nat} (ht : 1 ≤ t) (hl : t + 2 < len)
    (hper : ∀ c ∈ m.topology.keys, at' traj (t + 2) c = at' traj t c) {c : String} (hc : c ∈ m.topology.keys) :
    at' traj (t + 1) c = at' traj t c := by
  refine no_swing (S := m.topology.keys.toFinset) (K := strength N) (b := bias N m.topology.keys) (P := potential m)
    (form_nonneg (strength_comm hmut) (strength_dom hm.inv.tnd hanc)) (fun c hc => ?_) (fun c hc => ?_) c (List.mem_toFinset.2 hc)
  · exact run_best hm hs hN hor hrun (by omega) (by omega) (by omega) (List.mem_toFinset.1 hc)
  · rw [List.mem_toFinset] at hc
    have := run_best hm hs hN hor hrun (s := t + 1) (q := t + 1) (by omega) (by omega) (by omega) hc
    rwa [hper c hc] at this

theorem plays_net (m : FCM ℝ) : SameActs m m.net := fun _ k hk => ⟨k, hk, rfl, id⟩

theorem plays_vector (m : FCM ℝ) : SameActs m m.net.vector := by
  intro c k hk
  obtain ⟨k0, g1, rfl⟩ := Option.map_eq_some_iff.1 hk
  refine ⟨k0, g1, rfl, fun e => ?_⟩
  show k0.divisor.filter _ = none
  rw [e]
  rfl

/-- C125: if influence is mutual, then after at most as many steps as the map has states the activations repeat every
second step: the map rests or swings between two states. -/
theorem C125_two {m m' : FCM ℝ} (hm : Reachable m) (hd : m.debug = true) (hs : Stepwise m) (hmut : Mutual m.net m.topology.keys)
    (h : FCM.runInference true m = (.ok (), m')) {c : String} (hc : c ∈ m.topology.keys) {t : Nat} (ht : stateCount m ≤ t)
    (hl : t + 2 < m'.iterations) : at' m'.traj (t + 2) c = at' m'.traj t c := by
  obtain ⟨a, p, h1, h2, h3, h4⟩ := C120_cycle hm hd hs h
  obtain ⟨len, hi⟩ := run_iter hm.inv hd h
  rw [hi.iters] at hl h4
  exact run_two hm hs (plays_net m) (origins hm) hmut hi.run h1 h2 h4 (by omega) hl hc

/-- C125: the same for what the vectorised engine records. -/
theorem C125_vector {m m' : FCM ℝ} (hm : Vectorised m) (hs : Stepwise m) (hmut : Mutual m.net.vector m.topology.keys)
    (h : FCM.runInference true m = (.ok (), m')) {c : String} (hc : c ∈ m.topology.keys) {t : Nat} (ht : stateCount m ≤ t)
    (hl : t + 2 < (m'.traj c).length) : at' m'.traj (t + 2) c = at' m'.traj t c := by
  obtain ⟨a, p, h1, h2, h3, h4⟩ := C120_vector hm hs h
  obtain ⟨l, hr, -⟩ := vec_run hm h
  rw [(hr c hc).1] at hl
  exact run_two hm.clean.reachable hs (plays_vector m) (origins_vector hm.clean.reachable) hmut hr h1 h2
    (fun c hc t h5 h6 => h4 c hc t h5 (by rw [(hr c hc).1]; exact h6)) (by omega) hl hc

/-- C125: the two states follow each other. -/
theorem C125_pair {m m' : FCM ℝ} (hm : Reachable m) (hd : m.debug = true) (hs : Stepwise m) (hmut : Mutual m.net m.topology.keys)
    (h : FCM.runInference true m = (.ok (), m')) {t : Nat} (ht : stateCount m ≤ t) (hl : t + 2 < m'.iterations) :
    ∀ c ∈ m.topology.keys, next m.net (at' m'.traj t) c = some (.ok (at' m'.traj (t + 1) c)) ∧
      next m.net (at' m'.traj (t + 1)) c = some (.ok (at' m'.traj t c)) := by
  intro c hc
  obtain ⟨len, hi⟩ := run_iter hm.inv hd h
  have hl' := hl
  rw [hi.iters] at hl'
  refine ⟨(hi.run c hc).2 t (by omega), ?_⟩
  rw [← C125_two hm hd hs hmut h hc ht hl]
  exact (hi.run c hc).2 (t + 1) (by omega)

/-- C125: if moreover every concept is held at least as strongly by itself as by all others together, the map comes to rest. -/
theorem C125_rests {m m' : FCM ℝ} (hm : Reachable m) (hd : m.debug = true) (hs : Stepwise m) (hmut : Mutual m.net m.topology.keys)
    (hanc : Anchored m.net m.topology.keys) (h : FCM.runInference true m = (.ok (), m')) {t : Nat} (ht : stateCount m ≤ t)
    (hl : t + 2 < m'.iterations) : Rests m'.traj m.topology.keys t := by
  intro c hc
  obtain ⟨len, hi⟩ := run_iter hm.inv hd h
  have hl' := hl
  rw [hi.iters] at hl'
  have h1 : 1 ≤ stateCount m := stateCount_pos m
  exact run_still hm hs (plays_net m) (origins hm) hmut hanc hi.run (by omega) hl' (fun c hc => C125_two hm hd hs hmut h hc ht hl) hc

/-- C125: and inference stops in time. -/
theorem C125_stops {m m' : FCM ℝ} (hm : Reachable m) (hd : m.debug = true) (hs : Stepwise m) (hmut : Mutual m.net m.topology.keys)
    (hanc : Anchored m.net m.topology.keys) (h : FCM.runInference true m = (.ok (), m')) (h0 : 0 ≤ m.stabilityDiff)
    (h1 : m.stabilityDiff < 1/2) (hstop : m.stopAtStabilize = true) : m'.iterations ≤ stateCount m + m.extraSteps + 1 := by
  rcases C120_time hm hd hs h (C120_tells h0 h1) hstop with h2 | h2
  · exact h2
  · by_contra hlt
    have hx := hm.inv.extra
    have h3 : 1 ≤ stateCount m := stateCount_pos m
    exact h2 _ h3 (by omega) (C125_rests hm hd hs hmut hanc h (le_refl _) (by omega))

/-- C125: without an anchor a run that is longer than that swings between two different states to its end. -/
theorem C125_swings {m m' : FCM ℝ} (hm : Reachable m) (hd : m.debug = true) (hs : Stepwise m) (hmut : Mutual m.net m.topology.keys)
    (h : FCM.runInference true m = (.ok (), m')) (h0 : 0 ≤ m.stabilityDiff) (h1 : m.stabilityDiff < 1/2)
    (hstop : m.stopAtStabilize = true) (hlong : stateCount m + m.extraSteps + 1 < m'.iterations) {t : Nat} (ht : stateCount m ≤ t)
    (hl : t + 2 < m'.iterations) :
    (∀ c ∈ m.topology.keys, at' m'.traj (t + 2) c = at' m'.traj t c) ∧
      ∃ c ∈ m.topology.keys, at' m'.traj (t + 1) c ≠ at' m'.traj t c := by
  refine ⟨fun c hc => C125_two hm hd hs hmut h hc ht hl, ?_⟩
  have := (C120_time hm hd hs h (C120_tells h0 h1) hstop).resolve_left (by omega) t
    (by have : 1 ≤ stateCount m := stateCount_pos m; omega) (by omega)
  unfold Rests at this
  push Not at this
  exact this

/-- C125: the vectorised engine comes to rest too. -/
theorem C125_vector_rests {m m' : FCM ℝ} (hm : Vectorised m) (hs : Stepwise m) (hmut : Mutual m.net.vector m.topology.keys)
    (hanc : Anchored m.net.vector m.topology.keys) (h : FCM.runInference true m = (.ok (), m')) {c : String}
    (hc : c ∈ m.topology.keys) {t : Nat} (ht : stateCount m ≤ t) (hl : t + 2 < (m'.traj c).length) :
    at' m'.traj (t + 1) c = at' m'.traj t c := by
  obtain ⟨l, hr, -⟩ := vec_run hm h
  have hl' := hl
  rw [(hr c hc).1] at hl'
  have h1 : 1 ≤ stateCount m := stateCount_pos m
  exact run_still hm.clean.reachable hs (plays_vector m) (origins_vector hm.clean.reachable) hmut hanc hr (by omega) hl'
    (fun d hd => C125_vector hm hs hmut h hd ht (by rw [(hr d hd).1]; exact hl')) hc

/-! ### Concrete cases -/

namespace Ex

noncomputable def duet0 (mem : Bool) : FCM ℝ :=
  match FCM.new (decision := "LAST") (memInfluence := mem) (activation := "biestate") with
  | .ok m => m
  | .error _ => default

theorem duet0_new (mem : Bool) : FCM.new (α := ℝ) (decision := "LAST") (memInfluence := mem) (activation := "biestate") =
    .ok (duet0 mem) := rfl

noncomputable def duetOps (debug : Bool) : List (Op ℝ) :=
  [.addConcept "a" {}, .addConcept "b" {}, .addRelation "a" "b" (1/2), .addRelation "b" "a" (1/2), .initConcept "a" 1 true,
   .assignDebug debug]

/-- a and b excite each other, with or without memory; a starts at 1 and b at 0. -/
noncomputable def duet (mem debug : Bool) : FCM ℝ := runOps (duetOps debug) (duet0 mem)

theorem duet_clean (mem debug : Bool) : CleanReachable (duet mem debug) := by
  cases mem <;> cases debug
  · exact cleanReachable_of (.new (duet0_new false)) (duetOps false) rfl
  · exact cleanReachable_of (.new (duet0_new false)) (duetOps true) rfl
  · exact cleanReachable_of (.new (duet0_new true)) (duetOps false) rfl
  · exact cleanReachable_of (.new (duet0_new true)) (duetOps true) rfl

theorem duet_keys (mem debug : Bool) : (duet mem debug).topology.keys = ["a", "b"] := by cases mem <;> cases debug <;> rfl
theorem duet_arcs (mem debug : Bool) : (duet mem debug).arcList = [⟨"b", 1/2, "a"⟩, ⟨"a", 1/2, "b"⟩] := by
  cases mem <;> cases debug <;> rfl

theorem duet_node (mem debug : Bool) {c : String} {n : Node ℝ} (h : (duet mem debug).topology.get? c = some n) :
    n.fn = some ⟨.bistate, "biestate", []⟩ ∧ n.exec = some (.kosko, "KOSKO") ∧ n.useMem = some mem ∧ n.active = true := by
  have hk : c ∈ (duet mem debug).topology.keys := Dict.mem_keys_of_get? h
  have key : ∀ c, c = "a" ∨ c = "b" → ∃ o, (duet mem debug).topology.get? c = some o ∧
      o.fn = some ⟨.bistate, "biestate", []⟩ ∧ o.exec = some (.kosko, "KOSKO") ∧ o.useMem = some mem ∧ o.active = true := by
    rintro c (rfl | rfl) <;> cases mem <;> cases debug <;> exact ⟨_, rfl, rfl, rfl, rfl, rfl⟩
  rw [duet_keys] at hk
  obtain ⟨o, h1, h2⟩ := key c (by simpa using hk)
  rw [h] at h1
  cases h1
  exact h2

theorem duet_steps (mem debug : Bool) : Stepwise (duet mem debug) := fun _ _ hn =>
  ⟨_, (duet_node mem debug hn).1, Or.inl rfl⟩

theorem duet_concept (mem debug : Bool) {c : String} (hc : c ∈ (duet mem debug).topology.keys) : (duet mem debug).net.concept c =
    some ⟨true, false, mem, none, fun x => callActv .bistate x []⟩ := by
  obtain ⟨n, hn⟩ := Dict.exists_get?_of_mem hc
  obtain ⟨h1, h2, h3, h4⟩ := duet_node mem debug hn
  rw [concept_node hn, toSpec_of h1 h2 h3, h4]
  rfl

theorem duet_rels (mem debug : Bool) : (duet mem debug).net.rels = [⟨"a", "b", 1/2⟩, ⟨"b", "a", 1/2⟩] := by
  have : ∀ m : FCM ℝ, m.net.rels = m.arcList.map Arc.toSpec := fun _ => rfl
  rw [this, duet_arcs]
  rfl

theorem duet_coupling (mem debug : Bool) {c d : String} (hc : c = "a" ∨ c = "b") (hd : d = "a" ∨ d = "b") :
    coupling (duet mem debug).net d c = if d = c then 0 else 1/2 := by
  unfold coupling
  rw [duet_concept mem debug (c := d) (by rw [duet_keys]; simpa using hd), duet_rels]
  rcases hc with rfl | rfl <;> rcases hd with rfl | rfl <;> simp [total]

theorem duet_mutual (mem debug : Bool) : Mutual (duet mem debug).net (duet mem debug).topology.keys := by
  intro c hc d hd
  rw [duet_keys] at hc hd
  rw [duet_coupling mem debug (by simpa using hc) (by simpa using hd), duet_coupling mem debug (by simpa using hd) (by simpa using hc)]
  simp only [eq_comm]

theorem duet_anchored (debug : Bool) : Anchored (duet true debug).net (duet true debug).topology.keys := by
  intro c hc
  refine ⟨_, duet_concept true debug hc, ?_⟩
  rw [duet_keys] at hc ⊢
  have hc : c = "a" ∨ c = "b" := by simpa using hc
  rw [duet_coupling true debug hc hc, if_pos rfl]
  have hab := duet_coupling true debug (c := "a") (d := "b") (.inl rfl) (.inr rfl)
  have hba := duet_coupling true debug (c := "b") (d := "a") (.inr rfl) (.inl rfl)
  rcases hc with rfl | rfl
  · simp [hab]; norm_num
  · simp [hba]; norm_num

theorem duet_diff (mem debug : Bool) : (duet mem debug).stabilityDiff = 1/1000 := by
  have : (duet mem debug).stabilityDiff = dec 1 1000 := by cases mem <;> cases debug <;> rfl
  rw [this]
  norm_num [dec]

theorem duet_count (mem debug : Bool) : stateCount (duet mem debug) = 4 := by
  cases mem <;> cases debug <;> rfl

theorem duet_runs (mem : Bool) : ∃ m', FCM.runInference true (duet mem true) = (.ok (), m') :=
  C75_succeeds (duet_clean mem true) (by cases mem <;> rfl) (fun c n f hn hf => by
    rw [(duet_node mem true hn).1] at hf
    cases hf
    exact ⟨rfl, fun h => absurd h (by decide)⟩) (by cases mem <;> exact by decide)

/-- With memory the two stop after at most 4 + 5 + 1 states … -/
example : ∃ m', FCM.runInference true (duet true true) = (.ok (), m') ∧ m'.iterations ≤ 10 := by
  obtain ⟨m', h⟩ := duet_runs true
  refine ⟨m', h, ?_⟩
  have := C125_stops (duet_clean true true).reachable rfl (duet_steps true true) (duet_mutual true true) (duet_anchored true) h
    (by rw [duet_diff]; norm_num) (by rw [duet_diff]; norm_num) rfl
  rwa [duet_count] at this

/-- … and without memory they repeat every second step. -/
example {m' : FCM ℝ} (h : FCM.runInference true (duet false true) = (.ok (), m')) {t : Nat} (ht : 4 ≤ t) (hl : t + 2 < m'.iterations) :
    at' m'.traj (t + 2) "a" = at' m'.traj t "a" :=
  C125_two (duet_clean false true).reachable rfl (duet_steps false true) (duet_mutual false true) h
    (by rw [duet_keys]; simp) (by rwa [duet_count]) hl

/-- `FuzzyCognitiveMap(max_it=20, decision_function='LAST', mem_influence=False, activation_function='biestate')`, see `swap0`;
each of three concepts passes its value to the next. -/
def ringOps : List (Op ℚ) :=
  [.addConcept "a" {}, .addConcept "b" {}, .addConcept "c" {}, .addRelation "a" "b" 1, .addRelation "b" "c" 1,
   .addRelation "c" "a" 1, .initConcept "a" 1 true]

def ring : FCM ℚ := runOps ringOps swap0

theorem ring_clean : CleanReachable ring := cleanReachable_of (.new swap0_new) ringOps (by decide +kernel)

/-- One-way influence can go round in longer circles: mutuality is needed in `C125_two`. -/
theorem C125_ring : (FCM.runInference true ring).1 = .ok () ∧
    (FCM.runInference true ring).2.traj "a" = (List.range 24).map (fun t => if t % 3 = 0 then 1 else 0) ∧
    coupling ring.net "a" "b" = 1 ∧ coupling ring.net "b" "a" = 0 := by
  decide +kernel

/-- Where influence is mutual but no concept remembers, the two states differ (`swap` has period 2): the anchor is needed in
`C125_rests`. -/
theorem C125_unanchored : coupling (swap true).net "a" "b" = coupling (swap true).net "b" "a" ∧
    ¬ Rests (FCM.runInference true (swap true)).2.traj (swap true).topology.keys 20 := by
  unfold Rests
  decide +kernel

end Ex

end PyFCM
