import Verif.Props.Influence
import Verif.Props.Success
import Verif.Props.Functions
/-
C77: maps whose relations all excite are monotone in the initial activations and in the relations.
-/
namespace PyFCM
open Arith Spec

/-! ### Specification -/

/-- A concept that answers a greater input with a greater value. -/
def Spec.Rising (k : Concept ℝ) : Prop :=
  (∀ d, k.divisor = some d → 0 < d) ∧ ∀ x y u v, x ≤ y → k.act x = .ok u → k.act y = .ok v → u ≤ v

/-- All relations excite and all concepts are rising. -/
structure Spec.Excitatory (N : Net ℝ) : Prop where
  weights : ∀ r ∈ N.rels, 0 ≤ r.weight
  rising : ∀ c k, N.concept c = some k → Rising k

theorem source_mono {k : Concept ℝ} {a b : ℝ} (h : a ≤ b) : source k a ≤ source k b := by
  unfold source
  split
  · simp only [real_lit]; push_cast; linarith
  · exact h

theorem inputs_mono {N : Net ℝ} {A B : String → ℝ} {c : String} {rs : List (Rel ℝ)} (hw : ∀ r ∈ rs, 0 ≤ r.weight)
    (h : ∀ r ∈ rs, A r.origin ≤ B r.origin) :
    (rs.filterMap (along N A c)).sum ≤ (rs.filterMap (along N B c)).sum := by
  induction rs with
  | nil => simp
  | cons r rs ih =>
    have := ih (fun r hr => hw r (.tail _ hr)) (fun r hr => h r (.tail _ hr))
    have h1 := h r (.head _)
    have h2 := hw r (.head _)
    simp only [List.filterMap_cons]
    by_cases e : r.dest = c
    · cases hc : N.concept r.origin with
      | none => simpa [along, e, hc] using this
      | some o =>
        by_cases ha : o.active = true
        · have := mul_le_mul_of_nonneg_right (source_mono (k := o) h1) h2
          simp only [along, e, hc, ha, if_true, List.sum_cons]
          linarith
        · simpa [along, e, hc, ha] using this
    · simpa [along, e] using this

/-- The step function is monotone: same concept, no smaller input, no smaller previous value. -/
theorem next_le {N M : Net ℝ} {A B : String → ℝ} {c : String} {k : Concept ℝ} (hk : N.concept c = some k)
    (hk' : M.concept c = some k) (hr : Rising k) (hi : total (inputs N A c) ≤ total (inputs M B c)) (hc : A c ≤ B c)
    {u v : ℝ} (hu : next N A c = some (.ok u)) (hv : next M B c = some (.ok v)) : u ≤ v := by
  unfold next at hu hv
  rw [hk] at hu
  rw [hk'] at hv
  simp only [Option.map_some, Option.some.injEq] at hu hv
  have hs : (if k.memory then total (inputs N A c) + source k (A c) else total (inputs N A c)) ≤
      if k.memory then total (inputs M B c) + source k (B c) else total (inputs M B c) := by
    split
    · exact add_le_add hi (source_mono hc)
    · exact hi
  cases hd : k.divisor with
  | none =>
    rw [hd] at hu hv
    exact hr.2 _ _ _ _ hs hu hv
  | some d =>
    rw [hd] at hu hv
    have hp := hr.1 d hd
    simp only at hu hv
    split at hu
    · cases hu
    · split at hv
      · cases hv
      · exact hr.2 _ _ _ _ (div_le_div_of_nonneg_right hs hp.le) hu hv

/-- Two runs of one excitatory network keep the order of their starting points. -/
theorem run_mono {N : Net ℝ} (hN : Excitatory N) {cs : List String} (hcs : ∀ r ∈ N.rels, r.origin ∈ cs)
    {f g : String → List ℝ} {k l : Nat} (hf : IsRun N cs f k) (hg : IsRun N cs g l)
    (h0 : ∀ c ∈ cs, at' f 0 c ≤ at' g 0 c) :
    ∀ t, t < k → t < l → ∀ c ∈ cs, at' f t c ≤ at' g t c := by
  intro t
  induction t with
  | zero => intro _ _ c hc; exact h0 c hc
  | succ t ih =>
    intro hk hl c hc
    have e1 := (hf c hc).2 t hk
    have e2 := (hg c hc).2 t hl
    have ih := ih (by omega) (by omega)
    cases hcon : N.concept c with
    | none => unfold next at e1; rw [hcon] at e1; cases e1
    | some q =>
      refine next_le hcon hcon (hN.rising c q hcon) ?_ (ih c hc) e1 e2
      rw [total_real, total_real]
      exact inputs_mono hN.weights fun r hr => ih _ (hcs r hr)

/-- Adding excitatory relations to an excitatory network does not lower a run whose contributions are non-negative. -/
theorem run_more {N M : Net ℝ} (hN : Excitatory N) (hcon : M.concept = N.concept) {r : Rel ℝ}
    (hrels : M.rels = N.rels ++ [r]) (hw : 0 ≤ r.weight) {cs : List String} (hcs : ∀ r ∈ N.rels, r.origin ∈ cs)
    {f g : String → List ℝ} {k l : Nat} (hf : IsRun N cs f k) (hg : IsRun M cs g l)
    (hpos : ∀ t, t < l → ∀ q, N.concept r.origin = some q → 0 ≤ source q (at' g t r.origin))
    (h0 : ∀ c ∈ cs, at' f 0 c ≤ at' g 0 c) :
    ∀ t, t < k → t < l → ∀ c ∈ cs, at' f t c ≤ at' g t c := by
  intro t
  induction t with
  | zero => intro _ _ c hc; exact h0 c hc
  | succ t ih =>
    intro hk hl c hc
    have e1 := (hf c hc).2 t hk
    have e2 := (hg c hc).2 t hl
    have ih := ih (by omega) (by omega)
    cases hq : N.concept c with
    | none => unfold next at e1; rw [hq] at e1; cases e1
    | some q =>
      refine next_le hq (by rw [hcon]; exact hq) (hN.rising c q hq) ?_ (ih c hc) e1 e2
      rw [total_real, total_real]
      have hal : along M (at' g t) c = along N (at' g t) c := by
        funext x
        unfold along
        rw [hcon]
      unfold inputs
      rw [hrels, hal, List.filterMap_append, List.sum_append]
      have h1 := inputs_mono (N := N) (c := c) hN.weights fun r hr => ih _ (hcs r hr)
      have h2 : 0 ≤ ([r].filterMap (along N (at' g t) c)).sum := by
        simp only [List.filterMap_cons, List.filterMap_nil]
        split
        · simp
        · rename_i x hx
          unfold along at hx
          split at hx
          · split at hx
            · rename_i o ho
              split at hx
              · cases hx
                simpa using mul_nonneg (hpos t (by omega) o ho) hw
              · cases hx
            · cases hx
          · cases hx
      linarith

/-! ### The activation functions -/

/-- The functions that are monotone, with their arguments: the ones without a parameter, `sigmoid` and `sigmoid_hip`
with a slope of at least 0, `relm` with a positive one, `gceq` with a threshold of at least 0, `lceq` with one of at
most 0. -/
def RisingArgs (f : FnInfo ℝ) : Prop := match f.fn with
  | .bistate | .threestate | .saturation => f.args = []
  | .sigmoid | .sigmoidHip => f.args = [] ∨ ∃ l, 0 ≤ l ∧ f.args = [("lambda_val", .num l)]
  | .relm => f.args = [] ∨ ∃ l, 0 < l ∧ f.args = [("lambda_val", .num l)]
  | .gceq => ∃ w, 0 ≤ w ∧ f.args = [("weight", .num w)]
  | .lceq => ∃ w, w ≤ 0 ∧ f.args = [("weight", .num w)]
  | .fuzzy => False

theorem sigmoid_rises {x y l a b : ℝ} (hl : 0 ≤ l) (hxy : x ≤ y) (ha : sigmoid x l = .ok a) (hb : sigmoid y l = .ok b) :
    a ≤ b := by
  rw [sigmoid_real] at ha hb
  obtain rfl := Except.ok.inj ha
  obtain rfl := Except.ok.inj hb
  apply one_div_le_one_div_of_le (by positivity)
  have : Real.exp (-(l * y)) ≤ Real.exp (-(l * x)) := Real.exp_le_exp.2 (by nlinarith)
  linarith

theorem sigmoidHip_rises {x y l a b : ℝ} (hl : 0 ≤ l) (hxy : x ≤ y) (ha : sigmoidHip x l = .ok a)
    (hb : sigmoidHip y l = .ok b) : a ≤ b := by
  rw [sigmoidHip_real] at ha hb
  obtain rfl := Except.ok.inj ha
  obtain rfl := Except.ok.inj hb
  have h : Real.exp (min 500 (-(l * y))) ≤ Real.exp (min 500 (-(l * x))) :=
    Real.exp_le_exp.2 (min_le_min le_rfl (by nlinarith))
  rw [div_le_div_iff₀ (by positivity) (by positivity)]
  nlinarith

theorem relm_rises {x y l a b : ℝ} (hl : 0 < l) (hxy : x ≤ y) (ha : relm x l = .ok a) (hb : relm y l = .ok b) : a ≤ b := by
  rw [relm_real hl.ne'] at ha hb
  obtain rfl := Except.ok.inj ha
  obtain rfl := Except.ok.inj hb
  have hd : x / l ≤ y / l := div_le_div_of_nonneg_right hxy hl.le
  have h1 : ¬ y < 0 → 0 ≤ y / l := fun h => div_nonneg (not_lt.1 h) hl.le
  split_ifs <;> first | linarith | (have := h1 ‹_›; linarith)

theorem callActv_rises {f : FnInfo ℝ} (h : RisingArgs f) {x y u v : ℝ} (hxy : x ≤ y)
    (hu : callActv f.fn x f.args = .ok u) (hv : callActv f.fn y f.args = .ok v) : u ≤ v := by
  unfold RisingArgs at h
  cases hf : f.fn <;> rw [hf] at h hu hv <;> unfold callActv at hu hv <;> simp only at h hu hv
  case bistate =>
    rw [h] at hu hv; cases hu; cases hv
    unfold bistate
    simp only [real_le, real_lit]
    split_ifs <;> (simp at *; try linarith)
  case threestate =>
    rw [h] at hu hv; cases hu; cases hv
    unfold threestate
    have e : (dec 1 2 : ℝ) = 1 / 2 := by norm_num [dec]
    simp only [real_le, real_lit, e]
    split_ifs <;> norm_num at * <;> linarith
  case saturation =>
    rw [h] at hu hv; cases hu; cases hv
    rw [saturation_real, saturation_real]
    exact max_le_max le_rfl (min_le_min le_rfl hxy)
  case sigmoid =>
    rcases h with e | ⟨l, hl, e⟩ <;> rw [e] at hu hv
    · exact sigmoid_rises (l := lit 1) (by simp) hxy hu hv
    · exact sigmoid_rises hl hxy hu hv
  case sigmoidHip =>
    rcases h with e | ⟨l, hl, e⟩ <;> rw [e] at hu hv
    · exact sigmoidHip_rises (l := lit 2) (by simp) hxy hu hv
    · exact sigmoidHip_rises hl hxy hu hv
  case relm =>
    rcases h with e | ⟨l, hl, e⟩ <;> rw [e] at hu hv
    · exact relm_rises (l := lit 1) (by simp) hxy hu hv
    · exact relm_rises hl hxy hu hv
  case gceq =>
    obtain ⟨w, hw, e⟩ := h
    rw [e] at hu hv
    have eu : gceq x w = u := Except.ok.inj hu
    have ev : gceq y w = v := Except.ok.inj hv
    rw [← eu, ← ev, gceq_real, gceq_real]
    have hm : max (-1) (min 1 x) ≤ max (-1) (min 1 y) := max_le_max le_rfl (min_le_min le_rfl hxy)
    split_ifs
    · exact hm
    · linarith
    · exact le_max_of_le_right (le_min (by norm_num) (by linarith))
    · exact le_rfl
  case lceq =>
    obtain ⟨w, hw, e⟩ := h
    rw [e] at hu hv
    have eu : lceq x w = u := Except.ok.inj hu
    have ev : lceq y w = v := Except.ok.inj hv
    rw [← eu, ← ev, lceq_real, lceq_real]
    have hm : max (-1) (min 1 x) ≤ max (-1) (min 1 y) := max_le_max le_rfl (min_le_min le_rfl hxy)
    split_ifs
    · exact hm
    · exact max_le (by norm_num) ((min_le_right _ _).trans (by linarith))
    · linarith
    · exact le_rfl

/-- Maps with weights of at least 0 and monotone functions are excitatory. -/
theorem excitatory_of {m : FCM ℝ} (hm : Reachable m) (hw : ∀ a ∈ m.arcList, 0 ≤ a.weight)
    (hf : ∀ c n f, m.topology.get? c = some n → n.fn = some f → RisingArgs f) : Excitatory m.net := by
  refine ⟨fun r hr => ?_, fun c k hk => ?_⟩
  · obtain ⟨a, ha, rfl⟩ := List.mem_map.1 hr
    exact hw a ha
  · have hk : (m.topology.get? c).bind Node.toSpec = some k := hk
    obtain ⟨n, hn, hs⟩ := Option.bind_eq_some_iff.1 hk
    unfold Node.toSpec at hs
    split at hs
    · rename_i ex um f h1 h2 h3
      cases hs
      have hra := hf c n f hn h3
      refine ⟨fun d hd => ?_, fun x y u v hxy hu hv => callActv_rises hra hxy hu hv⟩
      exfalso
      dsimp only at hd
      split at hd
      · rename_i hz
        have hok : Activation.getFunctionByName f.name = some f.fn := (hm.inv.nodes c n hn).fn f h3
        rw [hz] at hok
        have hfz : f.fn = .fuzzy := (Option.some.inj hok).symm
        unfold RisingArgs at hra
        rw [hfz] at hra
        exact hra
      · cases hd
    · cases hs

/-! ### The decision functions -/

theorem maxOf_le {xs ys : List ℝ} (h : List.Forall₂ (· ≤ ·) xs ys) {u v : ℝ} (hu : maxOf xs = some u)
    (hv : maxOf ys = some v) : u ≤ v := by
  have key : ∀ {as bs : List ℝ}, List.Forall₂ (· ≤ ·) as bs → ∀ x y : ℝ, x ≤ y →
      as.foldl (fun m y => if Arith.lt m y then y else m) x ≤ bs.foldl (fun m y => if Arith.lt m y then y else m) y := by
    intro as bs h
    induction h with
    | nil => intro x y hxy; exact hxy
    | cons hab _ ih =>
      intro x y hxy
      simp only [List.foldl_cons]
      apply ih
      simp only [real_lt]
      split_ifs <;> linarith
  cases h with
  | nil => cases hu
  | cons hxy hrest =>
    unfold maxOf at hu hv
    rw [← Option.some.inj hu, ← Option.some.inj hv]
    exact key hrest _ _ hxy

/-- Every decision function is monotone in the trajectory. -/
theorem decideBy_le {name : String} {xs ys : List ℝ} {extra : Nat} (h : List.Forall₂ (· ≤ ·) xs ys) {u v : ℝ}
    (hu : decideBy name xs extra = some u) (hv : decideBy name ys extra = some v) : u ≤ v := by
  have hl := h.length_eq
  have hg : ∀ i : Nat, ∀ a b, xs[i]? = some a → ys[i]? = some b → a ≤ b := by
    intro i a b ha hb
    obtain ⟨h1, rfl⟩ := List.getElem?_eq_some_iff.1 ha
    obtain ⟨h2, rfl⟩ := List.getElem?_eq_some_iff.1 hb
    exact h.get h1 h2
  have htk : ∀ n, List.Forall₂ (· ≤ ·) (xs.take n) (ys.take n) := fun n => List.forall₂_take n h
  unfold decideBy at hu hv
  split at hu
  · rw [if_pos ‹_›] at hv
    unfold decideLast at hu hv
    rw [← hl] at hv
    split at hu
    · rw [if_pos ‹_›] at hv; exact hg _ _ _ hu hv
    · rw [if_neg ‹_›] at hv; exact hg _ _ _ hu hv
  rw [if_neg ‹_›] at hv
  split at hu
  · rw [if_pos ‹_›] at hv
    have key : ∀ as bs : List ℝ, List.Forall₂ (· ≤ ·) as bs →
        (if as = [] then none else some (total as / Arith.lit as.length)) = some u →
        (if bs = [] then none else some (total bs / Arith.lit bs.length)) = some v → u ≤ v := by
      intro as bs hab h1 h2
      split at h1
      · cases h1
      · split at h2
        · cases h2
        · cases h1; cases h2
          rw [total_real, total_real, hab.length_eq]
          refine div_le_div_of_nonneg_right hab.sum_le_sum ?_
          simp
    unfold decideMean at hu hv
    rw [← hl] at hv
    by_cases hlt : extra + 1 < xs.length
    · simp only [hlt, if_true] at hu hv; exact key _ _ (htk _) hu hv
    · simp only [hlt, if_false] at hu hv; exact key _ _ h hu hv
  rw [if_neg ‹_›] at hv
  split at hu
  · rw [if_pos ‹_›] at hv
    unfold decideExited at hu hv
    rw [← hl] at hv
    split at hu
    · rw [if_pos ‹_›] at hv; exact maxOf_le (htk _) hu hv
    · rw [if_neg ‹_›] at hv; exact maxOf_le h hu hv
  · cases hu

/-! ### C77 -/

/-- Two maps with the same settings that do not stop at stability make runs of the same length. -/
theorem same_length {α : Type} [Arith α] {m k m' k' : FCM α} (hm : Reachable m) (hk : Reachable k) (dm : m.debug = true)
    (dk : k.debug = true) (rm : FCM.runInference true m = (.ok (), m')) (rk : FCM.runInference true k = (.ok (), k'))
    (sm : m.stopAtStabilize = false) (sk : k.stopAtStabilize = false) (he : k.extraSteps = m.extraSteps)
    (hi : k.maxIter = m.maxIter) {c : String} (hc : c ∈ m.topology.keys) (hc' : c ∈ k.topology.keys) :
    (k'.traj c).length = (m'.traj c).length := by
  by_cases h2 : 2 ≤ m.extraSteps
  · have a := C02_exact hm dm sm h2 rm hc
    have b := C02_exact hk dk sk (by rw [he]; exact h2) rk hc'
    rw [he, hi, ← a] at b
    exact_mod_cast b
  · have e1 : m.extraSteps = 1 := by have := hm.inv.extra; omega
    rw [C02_no_step hm dm e1 rm hc, C02_no_step hk dk (he.trans e1) rk hc']

theorem final_le {m k m' k' : FCM ℝ} (hm : Reachable m) (hk : Reachable k) (dm : m.debug = true)
    (dk : k.debug = true) (rm : FCM.runInference true m = (.ok (), m')) (rk : FCM.runInference true k = (.ok (), k'))
    (sm : m.stopAtStabilize = false) (sk : k.stopAtStabilize = false) (he : k.extraSteps = m.extraSteps)
    (hi : k.maxIter = m.maxIter) (hd : k.decisionName = m.decisionName) {c : String} (hc : c ∈ m.topology.keys)
    (hc' : c ∈ k.topology.keys)
    (hle : ∀ t, t < (m'.traj c).length → t < (k'.traj c).length → at' m'.traj t c ≤ at' k'.traj t c) {u v : ℝ}
    (hu : m'.getConceptValue c = some u) (hv : k'.getConceptValue c = some v) : u ≤ v := by
  have hl := same_length hm hk dm dk rm rk sm sk he hi hc hc'
  obtain ⟨u', hu', du⟩ := C08_final_value hm rm hc
  obtain ⟨v', hv', dv⟩ := C08_final_value hk rk hc'
  rw [hu] at hu'; cases hu'
  rw [hv] at hv'; cases hv'
  rw [he, hd] at dv
  refine decideBy_le (List.forall₂_iff_get.2 ⟨hl.symm, fun i h1 h2 => ?_⟩) du dv
  have := hle i h1 h2
  unfold at' at this
  simpa [List.getD_eq_getElem?_getD, h1, h2] using this

/-- Two objects with the same excitatory map, the first starting below the second: at every step both of them reach,
every activation of the first is at most that of the second. -/
theorem C77_order {m k m' k' : FCM ℝ} (hm : Reachable m) (hk : Reachable k) (dm : m.debug = true)
    (dk : k.debug = true) (hx : Excitatory m.net) (hnet : k.net = m.net) (hkeys : k.topology.keys = m.topology.keys)
    (h0 : ∀ c ∈ m.topology.keys, at' m.traj 0 c ≤ at' k.traj 0 c) (rm : FCM.runInference true m = (.ok (), m'))
    (rk : FCM.runInference true k = (.ok (), k')) {c : String} (hc : c ∈ m.topology.keys) {t : Nat}
    (h1 : t < (m'.traj c).length) (h2 : t < (k'.traj c).length) : at' m'.traj t c ≤ at' k'.traj t c := by
  obtain ⟨a, -, ha, ia, -⟩ := C01_recurrence hm dm rm
  obtain ⟨b, -, hb, ib, -⟩ := C01_recurrence hk dk rk
  rw [hnet, hkeys] at hb
  rw [hkeys] at ib
  rw [(ha c hc).1] at h1
  rw [(hb c hc).1] at h2
  refine run_mono hx (fun r hr => ?_) ha hb (fun d hd => ?_) t h1 h2 c hc
  · obtain ⟨a, ha, rfl⟩ := List.mem_map.1 hr
    exact (hm.inv.ends a ha).1
  · rw [(ia d hd).2, (ib d hd).2]; exact h0 d hd

/-- `init_concept(b, v)` with a value that is not below the present start never lowers an activation; with
`stop_at_stabilize=False` it never lowers a final value. -/
theorem C77_init {m k m' k' : FCM ℝ} (hm : Reachable m) (dm : m.debug = true)
    (hw : ∀ a ∈ m.arcList, 0 ≤ a.weight)
    (hf : ∀ c n f, m.topology.get? c = some n → n.fn = some f → RisingArgs f) {b : String} {v : ℝ}
    (hi : FCM.initConcept b v true m = (.ok (), k)) (hv : at' m.traj 0 b ≤ v)
    (rm : FCM.runInference true m = (.ok (), m')) (rk : FCM.runInference true k = (.ok (), k')) {c : String}
    (hc : c ∈ m.topology.keys) :
    (∀ t, t < (m'.traj c).length → t < (k'.traj c).length → at' m'.traj t c ≤ at' k'.traj t c) ∧
      (m.stopAtStabilize = false → ∀ x y, m'.getConceptValue c = some x → k'.getConceptValue c = some y → x ≤ y) := by
  have hx := excitatory_of hm hw hf
  obtain ⟨e1, e2, e3, e4, e5, e6, e7, e8⟩ := initConcept_effect hi
  have hb : at' k.traj 0 b = v := by
    have key : k.execution.get? b = some [v] := by
      unfold FCM.initConcept at hi
      split at hi
      · cases hi
      · rename_i n hn
        split at hi
        · cases hi
        · rename_i f hfn
          split at hi
          · exfalso
            rename_i hz
            have hok : Activation.getFunctionByName f.name = some f.fn := (hm.inv.nodes b n hn).fn f hfn
            rw [hz] at hok
            have hfz : f.fn = .fuzzy := (Option.some.inj hok).symm
            have hra := hf b n f hn hfn
            unfold RisingArgs at hra
            rw [hfz] at hra
            exact hra
          · cases hi
            exact Dict.get?_set_self _ _ _
    unfold at' FCM.traj
    rw [key]
    rfl
  have hk : Reachable k := by
    have := hm.after (.initConcept b v true)
    have e : (Op.initConcept b v true).run m = (.ok (), k) := hi
    rwa [e] at this
  have h0 : ∀ c ∈ m.topology.keys, at' m.traj 0 c ≤ at' k.traj 0 c := by
    intro c _
    by_cases e : c = b
    · subst e; rw [hb]; exact hv
    · unfold at'; rw [e3 c e]
  have hle : ∀ t, t < (m'.traj c).length → t < (k'.traj c).length → at' m'.traj t c ≤ at' k'.traj t c :=
    fun t h1 h2 => C77_order hm hk dm (e4.trans dm) hx e1 e2 h0 rm rk hc h1 h2
  exact ⟨hle, fun hs x y => final_le hm hk dm (e4.trans dm) rm rk hs (e5.trans hs) e6 e7 e8 hc (by rw [e2]; exact hc) hle⟩

theorem addRelation_net {α : Type} [Arith α] {m k : FCM α} {o d : String} {w : α} (hfit : m.fitInclination = none)
    (hf : ∀ c n f, m.topology.get? c = some n → n.fn = some f → f.name ≠ "fuzzy")
    (h : FCM.addRelation o d w m = (.ok (), k)) (ho : o ∈ m.topology.keys) (hd : d ∈ m.topology.keys) :
    k.net.concept = m.net.concept ∧ k.net.rels = m.net.rels ++ [⟨o, d, w⟩] := by
  unfold FCM.addRelation at h
  dsimp only at h
  rw [if_pos (by simp [Dict.has_iff, ho, hd]), hfit] at h
  cases h
  refine ⟨?_, by simp [FCM.net, Arc.toSpec]⟩
  funext c
  show (Dict.get? (Dict.modify (Dict.modify _ _ _) _ _) c).bind _ = (Dict.get? _ c).bind _
  rw [Dict.get?_modify, Dict.get?_modify]
  have hsp : ∀ n : Node α, m.topology.get? c = some n → ∀ (as : List (String × α)) (s : α),
      Node.toSpec { n with arcs := as, actvSum := s } = n.toSpec := by
    intro n hn as s
    unfold Node.toSpec
    cases n.exec <;> cases n.useMem <;> cases hfn : n.fn <;> try rfl
    simp [hf c n _ hn hfn]
  cases hn : m.topology.get? c with
  | none => split <;> split <;> rfl
  | some n =>
    have hs := hsp n hn
    split <;> split <;> simp only [Option.map_some, Option.bind_some]
    · exact hs _ _
    · exact hs _ _
    · exact hs _ _

/-- `add_relation(o, d, w)` with `w` at least 0, from a concept whose activation stays at least 0, never lowers an
activation; with `stop_at_stabilize=False` it never lowers a final value. -/
theorem C77_relation {m k m' k' : FCM ℝ} (hm : Reachable m) (dm : m.debug = true) (hfit : m.fitInclination = none)
    (hw : ∀ a ∈ m.arcList, 0 ≤ a.weight)
    (hf : ∀ c n f, m.topology.get? c = some n → n.fn = some f → RisingArgs f) {o d : String} {w : ℝ} (hw0 : 0 ≤ w)
    (ho : o ∈ m.topology.keys) (hd : d ∈ m.topology.keys)
    (hi : FCM.addRelation o d w m = (.ok (), k)) (rm : FCM.runInference true m = (.ok (), m'))
    (rk : FCM.runInference true k = (.ok (), k'))
    (hres : ∀ q, m.net.concept o = some q → q.rescale = false) (hpos : ∀ x ∈ k'.traj o, 0 ≤ x) {c : String}
    (hc : c ∈ m.topology.keys) :
    (∀ t, t < (m'.traj c).length → t < (k'.traj c).length → at' m'.traj t c ≤ at' k'.traj t c) ∧
      (m.stopAtStabilize = false → ∀ x y, m'.getConceptValue c = some x → k'.getConceptValue c = some y → x ≤ y) := by
  have hx := excitatory_of hm hw hf
  have hnf : ∀ c n f, m.topology.get? c = some n → n.fn = some f → f.name ≠ "fuzzy" := by
    intro c n f hn hfn hz
    have hok : Activation.getFunctionByName f.name = some f.fn := (hm.inv.nodes c n hn).fn f hfn
    rw [hz] at hok
    have hfz : f.fn = .fuzzy := (Option.some.inj hok).symm
    have hra := hf c n f hn hfn
    unfold RisingArgs at hra
    rw [hfz] at hra
    exact hra
  obtain ⟨n1, n2⟩ := addRelation_net hfit hnf hi ho hd
  obtain ⟨-, -, e2, e3, e4, e5, e6, e7, e8⟩ := addRelation_effect hi
  have hk : Reachable k := by
    have := hm.after (.addRelation o d w)
    have e : (Op.addRelation o d w).run m = (.ok (), k) := hi
    rwa [e] at this
  have hle : ∀ t, t < (m'.traj c).length → t < (k'.traj c).length → at' m'.traj t c ≤ at' k'.traj t c := by
    intro t h1 h2
    obtain ⟨a, -, ha, ia, -⟩ := C01_recurrence hm dm rm
    obtain ⟨b, -, hb, ib, -⟩ := C01_recurrence hk (e4.trans dm) rk
    rw [e2] at hb ib
    rw [(ha c hc).1] at h1
    rw [(hb c hc).1] at h2
    refine run_more hx n1 n2 hw0 (fun r hr => ?_) ha hb (fun s hs q hq => ?_) (fun d hd => ?_) t h1 h2 c hc
    · obtain ⟨a, ha, rfl⟩ := List.mem_map.1 hr
      exact (hm.inv.ends a ha).1
    · unfold source
      rw [hres q hq]
      have hl := (hb o ho).1
      have : at' k'.traj s o = (k'.traj o)[s]'(by omega) := by
        unfold at'
        simp [List.getD_eq_getElem?_getD, show s < (k'.traj o).length by omega]
      simp only [Bool.false_eq_true, if_false]
      rw [this]
      exact hpos _ (List.getElem_mem _)
    · rw [(ia d hd).2, (ib d hd).2, e3]
  exact ⟨hle, fun hs x y => final_le hm hk dm (e4.trans dm) rm rk hs (e5.trans hs) e6 e7 e8 hc (by rw [e2]; exact hc) hle⟩

/-! ### Concrete cases -/

namespace Ex

noncomputable def upOps (x : ℝ) : List (Op ℝ) :=
  [.addConcept "a" {}, .addConcept "b" { activation := some "relm" }, .addRelation "a" "b" (1/2),
    .addRelation "b" "a" (1/4), .initConcept "a" x true]

/-- `plain1` with exciting relations a -(1/2)-> b and b -(1/4)-> a. -/
noncomputable def up (x : ℝ) : FCM ℝ := runOps (upOps x) plain0

theorem up_clean (x : ℝ) : CleanReachable (up x) := cleanReachable_of (.new plain0_new) (upOps x) rfl
theorem up_keys (x : ℝ) : (up x).topology.keys = ["a", "b"] := rfl

theorem up_fn {x : ℝ} {c : String} {n : Node ℝ} (h : (up x).topology.get? c = some n) :
    n.fn = some ⟨.sigmoidHip, "sigmoid_hip", []⟩ ∨ n.fn = some ⟨.relm, "relm", []⟩ := by
  have hk : c ∈ (up x).topology.keys := Dict.mem_keys_of_get? h
  rw [up_keys] at hk
  simp only [List.mem_cons, List.not_mem_nil, or_false] at hk
  rcases hk with rfl | rfl
  · cases h; exact .inl rfl
  · cases h; exact .inr rfl

theorem up_rising {x : ℝ} (c : String) (n : Node ℝ) (f : FnInfo ℝ) (h : (up x).topology.get? c = some n)
    (hf : n.fn = some f) : RisingArgs f := by
  rcases up_fn h with e | e <;> rw [e] at hf <;> cases hf <;> exact .inl rfl

theorem up_weights {x : ℝ} : ∀ a ∈ (up x).arcList, 0 ≤ a.weight := by
  have e : (up x).arcList = [⟨"b", 1/2, "a"⟩, ⟨"a", 1/4, "b"⟩] := rfl
  rw [e]
  intro a ha
  simp only [List.mem_cons, List.not_mem_nil, or_false] at ha
  rcases ha with rfl | rfl <;> norm_num

/-- Both runs of `C77_init` on this map succeed. -/
theorem up_run (m : FCM ℝ) (hr : CleanReachable m) (hd : m.debug = true) (hdec : m.decisionName = "LAST")
    (hf : ∀ c n, m.topology.get? c = some n →
      n.fn = some ⟨.sigmoidHip, "sigmoid_hip", []⟩ ∨ n.fn = some ⟨.relm, "relm", []⟩) :
    ∃ m', FCM.runInference true m = (.ok (), m') :=
  C75_succeeds hr hd
    (fun c n f hg hfn => by
      rcases hf c n hg with e | e <;> rw [e] at hfn <;> cases hfn
      · exact ⟨.inl rfl, fun hz => absurd hz (show ¬ _ = _ by decide)⟩
      · exact ⟨.inl rfl, fun hz => absurd hz (show ¬ _ = _ by decide)⟩)
    (by rw [hdec]; decide)

end Ex

/-- Raising the start of a from 1/4 to 1/2 raises every recorded activation of b. -/
example : ∃ m' k', FCM.runInference true (Ex.up (1/4)) = (.ok (), m') ∧
    FCM.runInference true (FCM.initConcept "a" (1/2) true (Ex.up (1/4))).2 = (.ok (), k') ∧
    ∀ t, t < (m'.traj "b").length → t < (k'.traj "b").length → at' m'.traj t "b" ≤ at' k'.traj t "b" := by
  obtain ⟨m', hm'⟩ := Ex.up_run (Ex.up (1/4)) (Ex.up_clean _) rfl rfl (fun _ _ => Ex.up_fn)
  have hcl : CleanReachable (FCM.initConcept "a" (1/2) true (Ex.up (1/4))).2 :=
    .step (.initConcept "a" (1/2) true) (Ex.up_clean _) rfl
  have hkeys : (FCM.initConcept "a" (1/2) true (Ex.up (1/4))).2.topology.keys = ["a", "b"] := rfl
  obtain ⟨k', hk'⟩ := Ex.up_run _ hcl rfl rfl (fun c n h => by
    have hk := Dict.mem_keys_of_get? h
    rw [hkeys] at hk
    simp only [List.mem_cons, List.not_mem_nil, or_false] at hk
    rcases hk with rfl | rfl
    · cases h; exact .inl rfl
    · cases h; exact .inr rfl)
  refine ⟨m', k', hm', hk', (C77_init (Ex.up_clean _).reachable rfl Ex.up_weights Ex.up_rising (b := "a") (v := 1/2) rfl ?_
    hm' hk' (c := "b") (by rw [Ex.up_keys]; simp)).1⟩
  show (1/4 : ℝ) ≤ 1/2
  norm_num

/-- A further exciting relation from b (whose function is relm, so that its activation is at least 0) to a raises every
recorded activation. -/
example : ∃ m' k', FCM.runInference true (Ex.up (1/4)) = (.ok (), m') ∧
    FCM.runInference true (FCM.addRelation "b" "a" (1/2) (Ex.up (1/4))).2 = (.ok (), k') ∧
    ∀ t, t < (m'.traj "a").length → t < (k'.traj "a").length → at' m'.traj t "a" ≤ at' k'.traj t "a" := by
  obtain ⟨m', hm'⟩ := Ex.up_run (Ex.up (1/4)) (Ex.up_clean _) rfl rfl (fun _ _ => Ex.up_fn)
  have hcl : CleanReachable (FCM.addRelation "b" "a" (1/2) (Ex.up (1/4))).2 :=
    .step (.addRelation "b" "a" (1/2)) (Ex.up_clean _) rfl
  have hkeys : (FCM.addRelation "b" "a" (1/2) (Ex.up (1/4))).2.topology.keys = ["a", "b"] := rfl
  obtain ⟨k', hk'⟩ := Ex.up_run _ hcl rfl rfl (fun c n h => by
    have hk := Dict.mem_keys_of_get? h
    rw [hkeys] at hk
    simp only [List.mem_cons, List.not_mem_nil, or_false] at hk
    rcases hk with rfl | rfl
    · cases h; exact .inl rfl
    · cases h; exact .inr rfl)
  have hpos : ∀ x ∈ k'.traj "b", 0 ≤ x := by
    obtain ⟨len, hi⟩ := run_iter hcl.clean.inv rfl hk'
    have hb : "b" ∈ (FCM.addRelation "b" "a" (1/2) (Ex.up (1/4))).2.topology.keys := by rw [hkeys]; simp
    intro x hx
    obtain ⟨t, htl, rfl⟩ := List.getElem_of_mem hx
    have e : (k'.traj "b")[t] = at' k'.traj t "b" := by simp [at', List.getD_eq_getElem?_getD, htl]
    rw [e]
    cases t with
    | zero => rw [(hi.init "b" hb).2]; show (0 : ℝ) ≤ lit 0; simp
    | succ t =>
      obtain ⟨n, f, x, hg, hf, hcall⟩ := iter_value hi hb (by rw [← (hi.run "b" hb).1]; exact htl)
      cases hg
      cases hf
      have hcall : relm x (lit 1) = .ok (at' k'.traj (t + 1) "b") := hcall
      obtain ⟨r, hr, h0, -⟩ := C06_relm x (lit 1) (by simp)
      rw [hr] at hcall
      cases hcall
      exact h0
  refine ⟨m', k', hm', hk', (C77_relation (Ex.up_clean _).reachable rfl rfl Ex.up_weights Ex.up_rising (o := "b") (d := "a")
    (w := 1/2) (by norm_num) (by rw [Ex.up_keys]; simp) (by rw [Ex.up_keys]; simp) rfl hm' hk' (fun q hq => ?_) hpos
    (c := "a") (by rw [Ex.up_keys]; simp)).1⟩
  cases hq
  rfl

end PyFCM
