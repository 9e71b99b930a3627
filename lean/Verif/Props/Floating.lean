import Verif.Lemmas.Floating
import Verif.Props.Dynamics
import Verif.Props.Success
/-
C114: inference in floating-point arithmetic.
-/
namespace PyFCM
open Arith Spec Ieee

set_option linter.unusedSectionVars false

variable [F : Format]

/-! ### Specification -/

/-- Positive slope, memberships in [0,1] over ascending values: the keyword arguments. -/
def Spec.SoundArgs (f : FnInfo Ieee) : Prop := match f.fn with
  | .relm => ∀ l, ("lambda_val", ArgVal.num l) ∈ f.args → (fin 0).lt l
  | .fuzzy => ∀ mb vl, ("membership", ArgVal.arr mb) ∈ f.args → ("val_list", ArgVal.arr vl) ∈ f.args →
      Ascending vl ∧ ∀ x ∈ mb, Among 0 1 x
  | _ => True

/-- The same of the argument vector. -/
def Spec.SoundVect (f : ActFn) (vect : List Ieee) : Prop := match f with
  | .relm => ∀ l, vect.head? = some l → (fin 0).lt l
  | .fuzzy => ∃ mb vl, vect = mb ++ vl ∧ mb.length = vl.length ∧ Ascending vl ∧ ∀ x ∈ mb, Among 0 1 x
  | _ => True

/-! ### Results of the activation functions -/

theorem lit1_pos : (fin 0).lt (lit 1 : Ieee) := by
  rw [lit1]; exact (show (0 : ℝ) < 1 by norm_num)

theorem within_up {x : Ieee} (h : Within 0 1 x) : Within (-1) 1 x := h.mono (by norm_num) le_rfl
theorem among_up {x : Ieee} (h : Among 0 1 x) : Within (-1) 1 x := within_up h.within

theorem callActv_within {f : FnInfo Ieee} (ht : SoundArgs f) {x v : Ieee} (h : callActv f.fn x f.args = .ok v) : Within (-1) 1 v := by
  unfold SoundArgs at ht
  cases hf : f.fn <;> rw [hf] at h ht <;> unfold callActv at h <;> simp only at h ht
  case bistate =>
    split at h <;> cases h
    exact among_up (bistate_among x)
  case threestate =>
    split at h <;> cases h
    exact among_up (threestate_among x)
  case saturation =>
    split at h <;> cases h
    exact within_up (saturation_within x)
  case sigmoid =>
    obtain ⟨l, -, h⟩ := exc_bind_ok h
    obtain ⟨r, hr, h1⟩ := sigmoid_within x l
    rw [hr] at h; cases h
    exact within_up h1
  case sigmoidHip =>
    obtain ⟨l, -, h⟩ := exc_bind_ok h
    obtain ⟨r, hr, h1⟩ := sigmoidHip_within x l
    rw [hr] at h; cases h
    exact h1
  case relm =>
    obtain ⟨l, hl, h⟩ := exc_bind_ok h
    have hpos : (fin 0).lt l := by
      rcases kw1_vect hl with ⟨-, rfl⟩ | e
      · exact lit1_pos
      · exact ht l (by rw [e]; simp)
    exact within_up (relm_within hpos h)
  case gceq =>
    obtain ⟨l, -, h⟩ := exc_bind_ok h
    cases h
    exact gceq_within x l
  case lceq =>
    obtain ⟨l, -, h⟩ := exc_bind_ok h
    cases h
    exact lceq_within x l
  case fuzzy =>
    obtain ⟨⟨mb, vl⟩, hl, h⟩ := exc_bind_ok h
    have hmem : ("membership", ArgVal.arr mb) ∈ f.args ∧ ("val_list", ArgVal.arr vl) ∈ f.args := by
      rcases kwFuzzy_cases hl with e | e <;> rw [e] <;> simp
    obtain ⟨a, b⟩ := ht mb vl hmem.1 hmem.2
    exact fuzzySet_within a b h

theorem execActv_within {f : ActFn} {vect : List Ieee} (ht : SoundVect f vect) {x v : Ieee}
    (h : execActvFunction f.id x vect = .ok v) : Within (-1) 1 v := by
  cases f
  case bistate =>
    cases h
    exact among_up (bistate_among x)
  case threestate =>
    cases h
    exact among_up (threestate_among x)
  case saturation =>
    cases h
    exact within_up (saturation_within x)
  case sigmoid =>
    obtain ⟨l, h⟩ : ∃ l, sigmoid x l = .ok v := by cases vect <;> exact ⟨_, h⟩
    obtain ⟨r, hr, h1⟩ := sigmoid_within x l
    rw [hr] at h; cases h
    exact within_up h1
  case sigmoidHip =>
    obtain ⟨l, h⟩ : ∃ l, sigmoidHip x l = .ok v := by cases vect <;> exact ⟨_, h⟩
    obtain ⟨r, hr, h1⟩ := sigmoidHip_within x l
    rw [hr] at h; cases h
    exact h1
  case relm =>
    obtain ⟨l, hl, h⟩ : ∃ l, (fin 0).lt l ∧ relm x l = .ok v := by
      cases vect with
      | nil => exact ⟨_, lit1_pos, h⟩
      | cons a vect => exact ⟨a, ht a rfl, h⟩
    exact within_up (relm_within hl h)
  case gceq =>
    obtain ⟨l, h⟩ : ∃ l, gceq x l = v := by cases vect <;> cases h <;> exact ⟨_, rfl⟩
    rw [← h]; exact gceq_within x l
  case lceq =>
    obtain ⟨l, h⟩ : ∃ l, lceq x l = v := by cases vect <;> cases h <;> exact ⟨_, rfl⟩
    rw [← h]; exact lceq_within x l
  case fuzzy =>
    obtain ⟨mb, vl, rfl, hl, hs, hr⟩ := ht
    have hhalf : (mb ++ vl).length / 2 = mb.length := by simp; omega
    have h' : fuzzySet x ((mb ++ vl).take ((mb ++ vl).length / 2)) ((mb ++ vl).drop ((mb ++ vl).length / 2)) = .ok v := h
    rw [hhalf, List.take_left, List.drop_left] at h'
    exact fuzzySet_within hs hr h'

/-! ### Decision functions -/

theorem fold_within : ∀ (xs : List Ieee) (acc : Ieee) (n : Nat), Within (-n) n acc → n + xs.length ≤ F.big →
    (∀ x ∈ xs, Within (-1) 1 x) → Within (-(n + xs.length : Nat)) (n + xs.length : Nat) (xs.foldl (· + ·) acc)
  | [], acc, n, h, _, _ => by simpa using h
  | x :: xs, acc, n, h, hb, hx => by
    simp only [List.length_cons] at hb ⊢
    have h1 := add_within (F := F) (lo := -n) (hi := n) (lo' := -1) (hi' := 1) (x := acc) (y := x)
      (by rw [abs_le]; constructor <;> omega) (by rw [abs_le]; constructor <;> omega)
      (by simpa using h) (by simpa using hx x (by simp))
    have := fold_within xs (acc + x) (n + 1) (h1.mono (by push_cast; linarith) (by push_cast; linarith)) (by omega) fun y hy => hx y (by simp [hy])
    rw [List.foldl_cons]
    refine this.mono ?_ ?_ <;> push_cast <;> linarith

theorem maxOf_mem {α : Type} [Arith α] {xs : List α} {v : α} (h : maxOf xs = some v) : v ∈ xs := by
  have key : ∀ (xs : List α) (x : α), xs.foldl (fun m y => if Arith.lt m y then y else m) x ∈ x :: xs := by
    intro xs
    induction xs with
    | nil => intro x; simp
    | cons y xs ih =>
      intro x
      rw [List.foldl_cons]
      have := ih (if Arith.lt x y then y else x)
      rw [List.mem_cons] at this
      rcases this with e | e
      · rw [e]; split <;> simp
      · simp [e]
  cases xs with
  | nil => cases h
  | cons x xs =>
    simp only [maxOf, Option.some.injEq] at h
    rw [← h]
    exact key xs x

/-- Decided values. -/
theorem decide_within {xs : List Ieee} {nm : String} {extra : Nat} {v : Ieee} (hl : xs.length ≤ F.big)
    (hb : ∀ x ∈ xs, Within (-1) 1 x) (h : decideBy nm xs extra = some v) : Within (-1) 1 v := by
  unfold decideBy at h
  split at h
  · unfold decideLast at h
    split at h <;> exact hb v (List.mem_of_getElem? h)
  split at h
  · unfold decideMean at h
    dsimp only at h
    generalize hys : (if extra + 1 < xs.length then xs.take (xs.length - extra) else xs) = ys at h
    have sub : ∀ x ∈ ys, Within (-1) 1 x := by
      subst hys
      split
      · exact fun x hx => hb x (List.mem_of_mem_take hx)
      · exact hb
    have len : ys.length ≤ F.big := by
      refine le_trans ?_ hl
      subst hys
      split
      · rw [List.length_take]; omega
      · exact le_rfl
    split at h
    · cases h
    · rename_i hne
      have hpos : 0 < ys.length := List.length_pos_iff.2 hne
      cases h
      have hs := fold_within ys (lit 0) 0 (.inr ⟨0, lit0, by simp, by simp⟩) (by omega) sub
      rw [Nat.zero_add] at hs
      have hL : (lit (ys.length : Int) : Ieee) = fin (ys.length : ℝ) := by
        have := Format.lit_int (n := (ys.length : Int)) (by rw [Nat.abs_cast]; exact_mod_cast len)
        simpa using this
      have e : (Arith.lit ((ys.length : Nat) : Int) : Ieee) = fin (ys.length : ℝ) := hL
      rw [e]
      show Within _ _ ((ys.foldl (· + ·) (lit 0)) / _)
      generalize ys.foldl (· + ·) (lit 0) = s at hs
      have hr : (0 : ℝ) < (ys.length : ℝ) := by exact_mod_cast hpos
      rcases hs with rfl | ⟨r, rfl, a, b⟩
      · exact .inl rfl
      · refine div_within (fun e => hr.ne' (fin.inj e)) hr.le ?_ ?_
        · exact a
        · exact b
  split at h
  · unfold decideExited at h
    split at h
    · exact hb v (List.mem_of_mem_take (maxOf_mem h))
    · exact hb v (maxOf_mem h)
  · cases h

theorem final_within {m m' : FCM Ieee} (hr : Reachable m) (h : FCM.runInference true m = (.ok (), m')) {c : String}
    (hc : c ∈ m.topology.keys) (hl : (m'.traj c).length ≤ F.big) (hb : ∀ x ∈ m'.traj c, Within (-1) 1 x) :
    ∃ v, m'.getConceptValue c = some v ∧ Within (-1) 1 v := by
  obtain ⟨v, hv, hdec⟩ := C08_final_value hr h hc
  exact ⟨v, hv, decide_within hl hb hdec⟩

/-! ### C114: values are in [-1,1] or NaN -/

/-- C114, iterative engine. -/
theorem C114_iterative {m m' : FCM Ieee} (hr : Reachable m) (hd : m.debug = true)
    (ht : ∀ c n f, m.topology.get? c = some n → n.fn = some f → SoundArgs f)
    (h0 : ∀ c ∈ m.topology.keys, Within (-1) 1 (at' m.traj 0 c))
    (h : FCM.runInference true m = (.ok (), m')) {c : String} (hc : c ∈ m.topology.keys) :
    (∀ x ∈ m'.traj c, Within (-1) 1 x) ∧
      ((m'.traj c).length ≤ F.big → ∃ v, m'.getConceptValue c = some v ∧ Within (-1) 1 v) := by
  obtain ⟨len, hi⟩ := run_iter hr.inv hd h
  have hall : ∀ x ∈ m'.traj c, Within (-1) 1 x := by
    intro x hx
    obtain ⟨t, htl, rfl⟩ := List.getElem_of_mem hx
    have e : (m'.traj c)[t] = at' m'.traj t c := by simp [at', List.getD_eq_getElem?_getD, htl]
    rw [e]
    cases t with
    | zero => rw [(hi.init c hc).2]; exact h0 c hc
    | succ t =>
      obtain ⟨n, f, x, hg, hf, hcall⟩ := iter_value hi hc (by rw [← (hi.run c hc).1]; exact htl)
      exact callActv_within (ht c n f hg hf) hcall
  exact ⟨hall, fun hl => final_within hr h hc hl hall⟩

theorem two_eq : (lit 2 =? (lit 2 : Ieee)) = true := by
  rw [deq_iff, lit2]
  rfl

/-- C114, vectorised engine. -/
theorem C114_vectorised {m m' : FCM Ieee} (hr : Reachable m) (hd : m.debug = false)
    (ht : ∀ c n f v, m.topology.get? c = some n → n.fn = some f → n.argsVect = some v → SoundVect f.fn v)
    (h0 : ∀ c ∈ m.topology.keys, Within (-1) 1 (at' m.traj 0 c))
    (h : FCM.runInference true m = (.ok (), m')) {c : String} (hc : c ∈ m.topology.keys) :
    (∀ x ∈ m'.traj c, Within (-1) 1 x) ∧
      ((m'.traj c).length ≤ F.big → ∃ v, m'.getConceptValue c = some v ∧ Within (-1) 1 v) := by
  have hne : m.topology ≠ [] := by
    intro e
    rw [e] at hc
    simp [Dict.keys] at hc
  obtain ⟨cc, ys, k, hv⟩ := run_vec hr.inv hr.coherent hd hne h
  have hrng := vec_all (P := Within (-1) 1) hr.inv hv.prep hv.cols
    (fun _ _ f _ _ _ hg hf ha hx => execActv_within (ht _ _ f _ hg hf ha) hx) h0
  have hi := List.idxOf_lt_length_iff.2 hc
  have htr := (hv.traj_take two_eq hne hi).2
  rw [keys_getElem_idxOf hc] at htr
  have hall : ∀ x ∈ m'.traj c, Within (-1) 1 x := by
    intro x hx
    rw [htr] at hx
    obtain ⟨y, hy, rfl⟩ := List.mem_map.1 (List.mem_of_mem_take hx)
    rw [List.getD_eq_getElem?_getD]
    cases hyx : y[m.topology.keys.idxOf c]? with
    | none => exact .inr ⟨0, lit0, by norm_num, by norm_num⟩
    | some v => exact hrng y hy v (List.mem_of_getElem? hyx)
  exact ⟨hall, fun hl => final_within hr h hc hl hall⟩

/-! ### C114: no NaN -/

/-- A function other than fuzzy whose slope, if it has one, is a number of the format that is not 0 (positive for relm):
the keyword arguments. -/
def Spec.SteadyArgs (f : FnInfo Ieee) : Prop := f.fn ≠ .fuzzy ∧
  ∀ l, ("lambda_val", ArgVal.num l) ∈ f.args → ∃ r, l = fin r ∧ F.rd r = fin r ∧ r ≠ 0 ∧ (f.fn = .relm → 0 < r)

/-- The same of the argument vector. -/
def Spec.SteadyVect (f : ActFn) (vect : List Ieee) : Prop := f ≠ .fuzzy ∧
  (f ≠ .gceq → f ≠ .lceq → ∀ l, vect.head? = some l → ∃ r, l = fin r ∧ F.rd r = fin r ∧ r ≠ 0 ∧ (f = .relm → 0 < r))

theorem among_of {lo hi : ℝ} {x : Ieee} (h : Within lo hi x) (hn : x ≠ nan) : Among lo hi x := h.resolve_left hn

theorem Among.num {lo hi : ℝ} {x : Ieee} (h : Among lo hi x) : x ≠ nan := by
  obtain ⟨r, rfl, -⟩ := h
  intro e; cases e

theorem add_num {x : Ieee} (h : x ≠ nan) (y : ℝ) : x + (fin y : Ieee) ≠ nan := by
  cases x with
  | nan => exact absurd rfl h
  | ninf => intro e; cases e
  | pinf => intro e; cases e
  | fin r => exact F.rd_num _

theorem fold_num : ∀ (xs : List Ieee) (acc : Ieee), acc ≠ nan → (∀ x ∈ xs, ∃ r, x = fin r) → xs.foldl (· + ·) acc ≠ nan
  | [], _, h, _ => h
  | x :: xs, acc, h, hx => by
    rw [List.foldl_cons]
    obtain ⟨r, rfl⟩ := hx x (by simp)
    exact fold_num xs _ (add_num h r) fun y hy => hx y (by simp [hy])

theorem div_num {x : Ieee} (h : x ≠ nan) {y : ℝ} (hy : y ≠ 0) : x / (fin y : Ieee) ≠ nan := by
  cases x with
  | nan => exact absurd rfl h
  | ninf =>
    show (if y < 0 then _ else _) ≠ _
    split <;> (intro e; cases e)
  | pinf =>
    show (if y < 0 then _ else _) ≠ _
    split <;> (intro e; cases e)
  | fin r =>
    show (if y = 0 then _ else _) ≠ _
    rw [if_neg hy]
    exact F.rd_num _

/-- `-l * x`. -/
theorem slope_num {x : Ieee} (h : x ≠ nan) {l : ℝ} (hl : F.rd l = fin l) (h0 : l ≠ 0) : lit (-1) * (fin l : Ieee) * x ≠ nan := by
  have e : (lit (-1) * (fin l : Ieee) : Ieee) = fin (-l) := by
    rw [litm1]
    show F.rd (-1 * l) = _
    rw [neg_one_mul, F.odd, hl]
    rfl
  rw [e]
  have inf_num (y : ℝ) (hy : y ≠ 0) : inf y ≠ nan := by
    unfold inf
    rcases lt_or_gt_of_ne hy with g | g
    · rw [if_neg (by linarith), if_pos g]; intro e; cases e
    · rw [if_pos g]; intro e; cases e
  cases x with
  | nan => exact absurd rfl h
  | ninf => exact inf_num _ (by simpa using h0)
  | pinf => exact inf_num _ (by simpa using h0)
  | fin r => exact F.rd_num _

theorem sigmoid_num {v l r : Ieee} (h : lit (-1) * l * v ≠ nan) (e : sigmoid v l = .ok r) : r ≠ nan := by
  unfold sigmoid at e
  generalize (lit (-1) * l * v) = t at *
  have h1 := F.exp_nonneg t h
  have h2 : (lit 1 : Ieee) + Arith.exp t ≠ nan := by
    rw [lit1]
    show Ieee.add (fin 1) (F.exp t) ≠ _
    cases g : F.exp t with
    | nan => rw [g] at h1; exact h1.elim
    | ninf => rw [g] at h1; exact h1.elim
    | pinf => intro e; cases e
    | fin y => exact F.rd_num _
  obtain ⟨hb, rfl⟩ := pdiv_some e
  rw [lit1] at *
  generalize (fin 1 + Arith.exp t : Ieee) = b at *
  cases b with
  | nan => exact absurd rfl h2
  | ninf => intro e; cases e
  | pinf => intro e; cases e
  | fin y => exact div_num (by intro e; cases e) (fun e => hb (by rw [e]))

theorem hip_num {e s : ℝ} (hs : F.rd (1 + e) = fin s) (h0 : s ≠ 0) : ((lit 1 : Ieee) - fin e) / ((lit 1 : Ieee) + fin e) ≠ nan := by
  rw [lit1, show (fin 1 : Ieee) + fin e = fin s from hs]
  exact div_num (F.rd_num _) h0

theorem sigmoidHip_num {v l r : Ieee} (h : lit (-1) * l * v ≠ nan) (e : sigmoidHip v l = .ok r) : r ≠ nan := by
  unfold sigmoidHip at e
  generalize (lit (-1) * l * v) = t at *
  have key : ∀ t : Ieee, (∃ e s, F.exp t = fin e ∧ F.rd (1 + e) = fin s) → ∀ r,
      pdiv (lit 1 - Arith.exp t) (lit 1 + Arith.exp t) = .ok r → r ≠ nan := by
    rintro t ⟨e, s, he, hs⟩ r hr
    have ee : (Arith.exp t : Ieee) = fin e := he
    obtain ⟨hb, rfl⟩ := pdiv_some hr
    rw [ee] at hb ⊢
    refine hip_num hs fun e0 => hb ?_
    rw [lit1]
    show F.rd (1 + e) = _
    rw [hs, e0]
  have l500 : (lit 500 : Ieee) = fin 500 := by simpa using Format.small (n := 500) (by decide)
  split at e
  · refine key (lit 500) ?_ r e
    rw [l500]
    exact F.exp_small 500 le_rfl
  · rename_i hlt
    rw [dlt_iff, l500] at hlt
    refine key t ?_ r e
    cases t with
    | nan => exact absurd rfl h
    | ninf =>
      refine ⟨0, 1, F.exp_ninf, ?_⟩
      rw [add_zero]
      simpa using F.ints 1 (big_of (by decide))
    | pinf => exact absurd trivial hlt
    | fin x => exact F.exp_small x (not_lt.1 hlt)

theorem relm_num {v l r : Ieee} {y : ℝ} (hv : v ≠ nan) (hl : l = fin y) (h0 : 0 < y) (h : relm v l = .ok r) : r ≠ nan := by
  unfold relm at h
  split at h
  · cases h; rw [lit0]; intro e; cases e
  · obtain ⟨q, hq, h⟩ := ebind_ok h
    obtain ⟨-, rfl⟩ := pdiv_some hq
    split at h
    · cases h; rw [lit1]; intro e; cases e
    · cases h; rw [hl]; exact div_num hv h0.ne'

theorem clamp_num {p : Prop} [Decidable p] {x : Ieee} {n : Int} (hn : |n| ≤ 1000) (hx : x ≠ nan) : (if p then (lit n : Ieee) else x) ≠ nan := by
  split
  · rw [Format.small hn]; intro e; cases e
  · exact hx

theorem clampb_num {b : Bool} {x : Ieee} {n : Int} (hn : |n| ≤ 1000) (hx : x ≠ nan) : (if b = true then (lit n : Ieee) else x) ≠ nan :=
  clamp_num hn hx

theorem lit0_num : (lit 0 : Ieee) ≠ nan := by rw [lit0]; intro e; cases e

theorem callActv_num {f : FnInfo Ieee} (ht : SteadyArgs f) {x v : Ieee} (hx : x ≠ nan) (h : callActv f.fn x f.args = .ok v) : v ≠ nan := by
  obtain ⟨hfz, hl⟩ := ht
  have slope : ∀ {d : Int} {l : Ieee}, (d = 1 ∨ d = 2) → kw1 "lambda_val" (lit d : Ieee) f.args = .ok l →
      ∃ r, l = fin r ∧ F.rd r = fin r ∧ r ≠ 0 ∧ (f.fn = .relm → 0 < r) := by
    intro d l hd h
    rcases kw1_vect h with ⟨-, rfl⟩ | e
    · rcases hd with rfl | rfl
      · exact ⟨1, lit1, by simpa using F.ints 1 (big_of (by decide)), by norm_num, fun _ => by norm_num⟩
      · exact ⟨2, lit2, by simpa using F.ints 2 (big_of (by decide)), by norm_num, fun _ => by norm_num⟩
    · exact hl l (by rw [e]; simp)
  cases hf : f.fn <;> rw [hf] at h hfz <;> unfold callActv at h <;> simp only at h
  case bistate =>
    split at h <;> cases h
    exact (bistate_among x).num
  case threestate =>
    split at h <;> cases h
    exact (threestate_among x).num
  case saturation =>
    split at h <;> cases h
    exact clampb_num (by decide) (clampb_num (by decide) hx)
  case sigmoid =>
    obtain ⟨l, hk, h⟩ := exc_bind_ok h
    obtain ⟨r, rfl, h1, h2, -⟩ := slope (.inl rfl) hk
    exact sigmoid_num (slope_num hx h1 h2) h
  case sigmoidHip =>
    obtain ⟨l, hk, h⟩ := exc_bind_ok h
    obtain ⟨r, rfl, h1, h2, -⟩ := slope (.inr rfl) hk
    exact sigmoidHip_num (slope_num hx h1 h2) h
  case relm =>
    obtain ⟨l, hk, h⟩ := exc_bind_ok h
    obtain ⟨r, e, -, -, h3⟩ := slope (.inl rfl) hk
    exact relm_num hx e (h3 hf) h
  case gceq =>
    obtain ⟨l, -, h⟩ := exc_bind_ok h
    cases h
    unfold gceq
    split
    · exact clampb_num (by decide) (clampb_num (by decide) hx)
    · exact lit0_num
  case lceq =>
    obtain ⟨l, -, h⟩ := exc_bind_ok h
    cases h
    unfold lceq
    split
    · exact clampb_num (by decide) (clampb_num (by decide) hx)
    · exact lit0_num
  case fuzzy => exact absurd rfl hfz

theorem execActv_num {f : ActFn} {vect : List Ieee} (ht : SteadyVect f vect) {x v : Ieee} (hx : x ≠ nan)
    (h : execActvFunction f.id x vect = .ok v) : v ≠ nan := by
  obtain ⟨hfz, hl⟩ := ht
  have one : ∃ r, (lit 1 : Ieee) = fin r ∧ F.rd r = fin r ∧ r ≠ 0 ∧ (f = .relm → 0 < r) :=
    ⟨1, lit1, by simpa using F.ints 1 (big_of (by decide)), by norm_num, fun _ => by norm_num⟩
  have two : ∃ r, (lit 2 : Ieee) = fin r ∧ F.rd r = fin r ∧ r ≠ 0 ∧ (f = .relm → 0 < r) :=
    ⟨2, lit2, by simpa using F.ints 2 (big_of (by decide)), by norm_num, fun _ => by norm_num⟩
  cases f
  case bistate => cases h; exact (bistate_among x).num
  case threestate => cases h; exact (threestate_among x).num
  case saturation => cases h; exact clampb_num (by decide) (clampb_num (by decide) hx)
  case sigmoid =>
    obtain ⟨l, hk, h⟩ : ∃ l, (∃ r, l = fin r ∧ F.rd r = fin r ∧ r ≠ 0 ∧ (ActFn.sigmoid = .relm → 0 < r)) ∧ sigmoid x l = .ok v := by
      cases vect with
      | nil => exact ⟨_, one, h⟩
      | cons a vect => exact ⟨a, hl (by simp) (by simp) a rfl, h⟩
    obtain ⟨r, rfl, h1, h2, -⟩ := hk
    exact sigmoid_num (slope_num hx h1 h2) h
  case sigmoidHip =>
    obtain ⟨l, hk, h⟩ : ∃ l, (∃ r, l = fin r ∧ F.rd r = fin r ∧ r ≠ 0 ∧ (ActFn.sigmoidHip = .relm → 0 < r)) ∧ sigmoidHip x l = .ok v := by
      cases vect with
      | nil => exact ⟨_, two, h⟩
      | cons a vect => exact ⟨a, hl (by simp) (by simp) a rfl, h⟩
    obtain ⟨r, rfl, h1, h2, -⟩ := hk
    exact sigmoidHip_num (slope_num hx h1 h2) h
  case relm =>
    obtain ⟨l, hk, h⟩ : ∃ l, (∃ r, l = fin r ∧ F.rd r = fin r ∧ r ≠ 0 ∧ (ActFn.relm = .relm → 0 < r)) ∧ relm x l = .ok v := by
      cases vect with
      | nil => exact ⟨_, one, h⟩
      | cons a vect => exact ⟨a, hl (by simp) (by simp) a rfl, h⟩
    obtain ⟨r, e, -, -, h3⟩ := hk
    exact relm_num hx e (h3 rfl) h
  case gceq =>
    obtain ⟨l, h⟩ : ∃ l, gceq x l = v := by cases vect <;> cases h <;> exact ⟨_, rfl⟩
    rw [← h]
    unfold gceq
    split
    · exact clampb_num (by decide) (clampb_num (by decide) hx)
    · exact lit0_num
  case lceq =>
    obtain ⟨l, h⟩ : ∃ l, lceq x l = v := by cases vect <;> cases h <;> exact ⟨_, rfl⟩
    rw [← h]
    unfold lceq
    split
    · exact clampb_num (by decide) (clampb_num (by decide) hx)
    · exact lit0_num
  case fuzzy => exact absurd rfl hfz

/-- `2a - 1`. -/
theorem rescale_among {a : Ieee} (h : Among (-1) 1 a) : Among (-3) 3 (lit 2 * a - lit 1 : Ieee) := by
  obtain ⟨r, rfl, h1, h2⟩ := h
  rw [lit2, lit1, sub_eq]
  have := Format.rd_among (F := F) (lo := -2) (hi := 2) (x := 2 * r) (big_of (by decide)) (big_of (by decide)) (by push_cast; linarith)
    (by push_cast; linarith)
  have h3 := add_among (F := F) (lo := -2) (hi := 2) (lo' := -1) (hi' := -1) (x := (fin 2 * fin r : Ieee)) (y := Ieee.neg (fin 1))
    (big_of (by decide)) (big_of (by decide)) this ⟨-1, rfl, by simp, by simp⟩
  exact h3.mono (by norm_num) (by norm_num)

/-- What is contributed along a relation. -/
theorem product_fin {a w : Ieee} {W : Nat} (hW : 3 * W ≤ F.big) (ha : Among (-3) 3 a) (hw : Among (-W) W w) : ∃ r, a * w = (fin r : Ieee) := by
  obtain ⟨r, rfl, h1, h2⟩ := ha
  obtain ⟨s, rfl, h3, h4⟩ := hw
  have hb : |(3 * W : Int)| ≤ F.big := by rw [abs_of_nonneg (by positivity)]; exact_mod_cast hW
  have hab : |r * s| ≤ 3 * W := by
    rw [abs_mul]
    exact mul_le_mul (abs_le.2 ⟨h1, h2⟩) (abs_le.2 ⟨h3, h4⟩) (abs_nonneg _) (by norm_num)
  have := Format.rd_among (F := F) (lo := -(3 * W)) (hi := 3 * W) (x := r * s) (by rwa [abs_neg]) hb
    (by push_cast; linarith [(abs_le.1 hab).1]) (by push_cast; exact (abs_le.1 hab).2)
  obtain ⟨z, hz, -⟩ := this
  exact ⟨z, hz⟩

theorem source_among {k : Concept Ieee} {a : Ieee} (h : Among (-1) 1 a) : Among (-3) 3 (source k a) := by
  unfold source
  split
  · exact rescale_among h
  · exact h.mono (by norm_num) (by norm_num)

theorem decide_among {xs : List Ieee} {nm : String} {extra : Nat} {v : Ieee} (hl : xs.length ≤ F.big)
    (hb : ∀ x ∈ xs, Among (-1) 1 x) (h : decideBy nm xs extra = some v) : Among (-1) 1 v := by
  refine among_of (decide_within hl (fun x hx => (hb x hx).within) h) ?_
  unfold decideBy at h
  split at h
  · unfold decideLast at h
    split at h <;> exact (hb v (List.mem_of_getElem? h)).num
  split at h
  · unfold decideMean at h
    dsimp only at h
    generalize hys : (if extra + 1 < xs.length then xs.take (xs.length - extra) else xs) = ys at h
    have sub : ∀ x ∈ ys, Among (-1) 1 x := by
      subst hys
      split
      · exact fun x hx => hb x (List.mem_of_mem_take hx)
      · exact hb
    have len : ys.length ≤ F.big := by
      refine le_trans ?_ hl
      subst hys
      split
      · rw [List.length_take]; omega
      · exact le_rfl
    split at h
    · cases h
    · rename_i hne
      cases h
      have e : (Arith.lit ((ys.length : Nat) : Int) : Ieee) = fin (ys.length : ℝ) := by
        have := Format.lit_int (n := (ys.length : Int)) (by rw [Nat.abs_cast]; exact_mod_cast len)
        simpa using this
      rw [e]
      refine div_num (fold_num ys _ lit0_num fun x hx => ?_) (by simpa using hne)
      obtain ⟨r, e, -⟩ := sub x hx
      exact ⟨r, e⟩
  split at h
  · unfold decideExited at h
    split at h
    · exact (hb v (List.mem_of_mem_take (maxOf_mem h))).num
    · exact (hb v (maxOf_mem h)).num
  · cases h

theorem steady_sound {f : FnInfo Ieee} (h : SteadyArgs f) : SoundArgs f := by
  obtain ⟨h1, h2⟩ := h
  unfold SoundArgs
  cases hf : f.fn <;> simp only
  case relm =>
    intro l hl
    obtain ⟨r, rfl, -, -, h3⟩ := h2 l hl
    exact h3 hf
  case fuzzy => exact absurd hf h1

theorem steady_soundVect {f : ActFn} {v : List Ieee} (h : SteadyVect f v) : SoundVect f v := by
  obtain ⟨h1, h2⟩ := h
  unfold SoundVect
  cases hf : f <;> simp only
  case relm =>
    intro l hl
    obtain ⟨r, rfl, -, -, h3⟩ := h2 (by simp [hf]) (by simp [hf]) l hl
    exact h3 hf
  case fuzzy => exact absurd hf h1

/-- One step of the recurrence. -/
theorem next_among {m : FCM Ieee} (hm : Inv m) {W : Nat} (hW : 3 * W ≤ F.big) (hw : ∀ a ∈ m.arcList, Among (-W) W a.weight)
    (ht : ∀ c n f, m.topology.get? c = some n → n.fn = some f → SteadyArgs f) {A : String → Ieee}
    (hA : ∀ c ∈ m.topology.keys, Among (-1) 1 (A c)) {c : String} {v : Ieee} (h : next m.net A c = some (.ok v)) : Among (-1) 1 v := by
  unfold next at h
  cases hg : m.topology.get? c with
  | none =>
    have : m.net.concept c = none := by show (m.topology.get? c).bind _ = _; rw [hg]; rfl
    rw [this] at h; cases h
  | some n =>
    have hc : c ∈ m.topology.keys := Dict.mem_keys_of_get? hg
    have hcon : m.net.concept c = n.toSpec := by show (m.topology.get? c).bind _ = _; rw [hg]; rfl
    rw [hcon] at h
    cases hs : n.toSpec with
    | none => rw [hs] at h; cases h
    | some k =>
      rw [hs] at h
      unfold Node.toSpec at hs
      split at hs
      case h_2 => cases hs
      case h_1 ex um f he hu hf =>
        cases hs
        have hst := ht c n f hg hf
        have hok : f.Ok := (hm.nodes _ _ hg).fn f hf
        have hname : f.name ≠ "fuzzy" := by
          intro e
          have : f.fn = .fuzzy := by
            have := hok
            unfold FnInfo.Ok at this
            rw [e] at this
            simpa [Activation.getFunctionByName] using this.symm
          exact hst.1 this
        have hin : ∀ x ∈ inputs m.net A c, ∃ r, x = fin r := by
          intro x hx
          obtain ⟨r, hr, hx⟩ := List.mem_filterMap.1 hx
          obtain ⟨a, ha, rfl⟩ := List.mem_map.1 hr
          unfold along at hx
          split at hx
          · split at hx
            · rename_i o ho
              split at hx
              · cases hx
                refine product_fin hW (source_among (hA _ ?_)) (hw a ha)
                cases ho' : m.topology.get? a.origin with
                | none =>
                  have : m.net.concept a.toSpec.origin = none := by
                    show (m.topology.get? a.origin).bind _ = _; rw [ho']; rfl
                  rw [this] at ho; cases ho
                | some _ => exact Dict.mem_keys_of_get? ho'
              · cases hx
            · cases hx
          · cases hx
        have hsum : total (inputs m.net A c) ≠ nan := fold_num _ _ lit0_num hin
        simp only [Option.map_some, Option.some.injEq, if_neg hname] at h
        refine among_of (callActv_within (steady_sound hst) h) (callActv_num hst ?_ h)
        split
        · obtain ⟨r, hr, -⟩ := source_among (k := { active := n.active, rescale := ex.2 == "PAPAGEORGIUS", memory := um, divisor := none, act := fun x => callActv f.fn x f.args }) (hA c hc)
          have e : ∀ k : Concept Ieee, k.rescale = (ex.2 == "PAPAGEORGIUS") → source k (A c) = fin r := by
            intro k hk
            rw [← hr]
            unfold source
            rw [hk]
          rw [e _ rfl]
          exact add_num hsum r
        · exact hsum

/-- C114, iterative engine: with weights of at most a third of the exact integers and steady functions nothing becomes NaN. -/
theorem C114_no_nan {m m' : FCM Ieee} (hr : Reachable m) (hd : m.debug = true) {W : Nat} (hW : 3 * W ≤ F.big)
    (hw : ∀ a ∈ m.arcList, Among (-W) W a.weight)
    (ht : ∀ c n f, m.topology.get? c = some n → n.fn = some f → SteadyArgs f)
    (h0 : ∀ c ∈ m.topology.keys, Among (-1) 1 (at' m.traj 0 c))
    (h : FCM.runInference true m = (.ok (), m')) {c : String} (hc : c ∈ m.topology.keys) :
    (∀ x ∈ m'.traj c, Among (-1) 1 x) ∧
      ((m'.traj c).length ≤ F.big → ∃ v, m'.getConceptValue c = some v ∧ Among (-1) 1 v) := by
  obtain ⟨len, hi⟩ := run_iter hr.inv hd h
  have hstep : ∀ t, t < len → ∀ c ∈ m.topology.keys, Among (-1) 1 (at' m'.traj t c) := by
    intro t
    induction t with
    | zero => intro _ c hc; rw [(hi.init c hc).2]; exact h0 c hc
    | succ t ih => intro htl c hc; exact next_among hr.inv hW hw ht (ih (by omega)) ((hi.run c hc).2 t htl)
  have hall : ∀ x ∈ m'.traj c, Among (-1) 1 x := by
    intro x hx
    obtain ⟨t, htl, rfl⟩ := List.getElem_of_mem hx
    have e : (m'.traj c)[t] = at' m'.traj t c := by simp [at', List.getD_eq_getElem?_getD, htl]
    rw [e]
    exact hstep t (by rw [← (hi.run c hc).1]; exact htl) c hc
  refine ⟨hall, fun hl => ?_⟩
  obtain ⟨v, hv, hdec⟩ := C08_final_value hr h hc
  exact ⟨v, hv, decide_among hl hall hdec⟩

theorem matSet_all {P : Ieee → Prop} {M : List (List Ieee)} {i j : Nat} {w : Ieee} (hM : ∀ row ∈ M, ∀ x ∈ row, P x) (hw : P w) :
    ∀ row ∈ matSet M i j w, ∀ x ∈ row, P x := by
  intro row hrow x hx
  obtain ⟨k, hk, rfl⟩ := List.getElem_of_mem hrow
  unfold matSet at hx hk
  rw [List.length_modify] at hk
  rw [List.getElem_modify] at hx
  split at hx
  · rcases List.mem_or_eq_of_mem_set hx with g | g
    · exact hM _ (List.getElem_mem hk) x g
    · rw [g]; exact hw
  · exact hM _ (List.getElem_mem hk) x hx

theorem fillMatrix_all {P : Ieee → Prop} {keys : List String} : ∀ (as : List (Arc Ieee)) (M M' : List (List Ieee)),
    (∀ a ∈ as, P a.weight) → (∀ row ∈ M, ∀ x ∈ row, P x) → fillMatrix keys as M = .ok M' → ∀ row ∈ M', ∀ x ∈ row, P x
  | [], M, M', _, hM, h => by cases h; exact hM
  | a :: as, M, M', ha, hM, h => by
    unfold fillMatrix at h
    split at h
    · exact fillMatrix_all as _ M' (fun b hb => ha b (by simp [hb])) (matSet_all hM (ha a (by simp))) h
    · cases h

theorem desat_among {b : Bool} {a : Ieee} (h : Among (-1) 1 a) : Among (-3) 3 (desat b a) := by
  unfold desat
  split
  · exact rescale_among h
  · exact h.mono (by norm_num) (by norm_num)

theorem mem_zipWith {β γ δ : Type} {f : β → γ → δ} {as : List β} {bs : List γ} {x : δ} (h : x ∈ List.zipWith f as bs) :
    ∃ a ∈ as, ∃ b ∈ bs, x = f a b := by
  obtain ⟨i, hi, rfl⟩ := List.getElem_of_mem h
  rw [List.getElem_zipWith]
  exact ⟨_, List.getElem_mem _, _, List.getElem_mem _, rfl⟩

/-- C114, vectorised engine: the same. -/
theorem C114_no_nan_vectorised {m m' : FCM Ieee} (hr : Reachable m) (hd : m.debug = false) {W : Nat} (hW : 3 * W ≤ F.big)
    (hw : ∀ a ∈ m.arcList, Among (-W) W a.weight)
    (ht : ∀ c n f v, m.topology.get? c = some n → n.fn = some f → n.argsVect = some v → SteadyVect f.fn v)
    (h0 : ∀ c ∈ m.topology.keys, Among (-1) 1 (at' m.traj 0 c))
    (h : FCM.runInference true m = (.ok (), m')) {c : String} (hc : c ∈ m.topology.keys) :
    (∀ x ∈ m'.traj c, Among (-1) 1 x) ∧
      ((m'.traj c).length ≤ F.big → ∃ v, m'.getConceptValue c = some v ∧ Among (-1) 1 v) := by
  have hne : m.topology ≠ [] := by
    intro e
    rw [e] at hc
    simp [Dict.keys] at hc
  obtain ⟨cc, ys, k, hv⟩ := run_vec hr.inv hr.coherent hd hne h
  obtain ⟨hrow, hfill, -⟩ := prepare_ok hv.prep
  have hmat : ∀ row ∈ cc.relationMatrix, ∀ x ∈ row, Among (-W) W x := by
    refine fillMatrix_all _ _ _ hw ?_ hfill
    intro row hrow x hx
    rw [List.eq_of_mem_replicate hrow] at hx
    rw [List.eq_of_mem_replicate hx]
    exact ⟨0, lit0, by simp, by simp⟩
  have hsl : m.start.length = m.topology.length := by simp [FCM.start, Dict.keys]
  have hcol : ∀ t (ht : t < ys.length), ∀ v ∈ ys[t], Among (-1) 1 v := by
    intro t
    induction t with
    | zero =>
      intro ht v hvv
      have a := hv.cols.head
      rw [List.getElem?_eq_getElem ht] at a
      rw [Option.some.inj a] at hvv
      obtain ⟨d, hd, rfl⟩ := List.mem_map.1 hvv
      exact h0 d hd
    | succ t ih =>
      intro ht' v hvv
      have hy := ih (by omega)
      have a := hv.cols.step t ys[t] ys[t + 1] (List.getElem?_eq_getElem (by omega)) (List.getElem?_eq_getElem ht')
      rw [hsl] at a
      obtain ⟨i, hi, rfl⟩ := List.getElem_of_mem hvv
      have hl := mapM_length a
      rw [List.length_range] at hl
      have hi' : i < m.topology.length := by omega
      have hyi := mapM_getElem a i (by simpa using hi') hi
      rw [List.getElem_range] at hyi
      obtain ⟨si, mem, r, id, args, x, h1, -, h3, h4, h5, h6, h7⟩ := vecNode_ok.1 hyi
      obtain ⟨f, id', args', um, ex, hri⟩ := hrow i hi'
      rw [hri.functions] at h4; cases h4
      rw [hri.functionArgs] at h5; cases h5
      have hg := get?_getElem hr.inv.tnd i hi'
      have hfn : f.Ok := (hr.inv.nodes _ _ hg).fn f hri.fn
      have hid : id = f.fn.id := by
        have := hri.const
        rw [getConst_eq, hfn] at this
        simpa using this.symm
      rw [hid] at h7
      have hst := ht _ _ f _ hg hri.fn hri.vect
      have hname : f.name ≠ "fuzzy" := by
        intro e
        refine hst.1 ?_
        have := hfn
        unfold FnInfo.Ok at this
        rw [e] at this
        simpa [Activation.getFunctionByName] using this.symm
      rw [hri.normalize, if_neg hname] at h3
      cases h3
      have hstate : ∀ s ∈ List.zipWith desat cc.avoidSaturation ys[t], Among (-3) 3 s := by
        intro s hs
        obtain ⟨b, -, a, ha, rfl⟩ := mem_zipWith hs
        exact desat_among (hy a ha)
      have hdot : dotCol (List.zipWith desat cc.avoidSaturation ys[t]) cc.relationMatrix i ≠ nan := by
        refine fold_num _ _ lit0_num fun z hz => ?_
        obtain ⟨s, hs, row, hrow, rfl⟩ := mem_zipWith hz
        refine product_fin hW (hstate s hs) ?_
        rw [List.getD_eq_getElem?_getD]
        cases hx : row[i]? with
        | none => exact ⟨0, lit0, by simp, by simp⟩
        | some w => exact hmat row hrow w (List.mem_of_getElem? hx)
      have hx : x = if mem = true then dotCol (List.zipWith desat cc.avoidSaturation ys[t]) cc.relationMatrix i + si
          else dotCol (List.zipWith desat cc.avoidSaturation ys[t]) cc.relationMatrix i := by
        unfold normInput at h6
        split at h6
        · rename_i hlt
          rw [dlt_iff, lit0] at hlt
          exact absurd (show (0 : ℝ) < 0 from hlt) (lt_irrefl _)
        · exact (Except.ok.inj h6).symm
      refine among_of (execActv_within (steady_soundVect hst) h7) (execActv_num hst ?_ h7)
      rw [hx]
      split
      · obtain ⟨r, rfl, -⟩ := hstate si (List.mem_of_getElem? h1)
        exact add_num hdot r
      · exact hdot
  have hi := List.idxOf_lt_length_iff.2 hc
  have htr := (hv.traj_take two_eq hne hi).2
  rw [keys_getElem_idxOf hc] at htr
  have hall : ∀ x ∈ m'.traj c, Among (-1) 1 x := by
    intro x hx
    rw [htr] at hx
    obtain ⟨y, hy, rfl⟩ := List.mem_map.1 (List.mem_of_mem_take hx)
    rw [List.getD_eq_getElem?_getD]
    cases hyx : y[m.topology.keys.idxOf c]? with
    | none => exact ⟨0, lit0, by norm_num, by norm_num⟩
    | some v =>
      obtain ⟨t, htl, rfl⟩ := List.getElem_of_mem hy
      exact hcol t htl v (List.mem_of_getElem? hyx)
  refine ⟨hall, fun hl => ?_⟩
  obtain ⟨v, hv, hdec⟩ := C08_final_value hr h hc
  exact ⟨v, hv, decide_among hl hall hdec⟩

/-! ### C114: the iterative engine returns -/

/-- Arguments the functions other than fuzzy accept; any slope (an infinity, NaN), except 0 for relm. -/
def Spec.PlainArgs (f : FnInfo Ieee) : Prop := match f.fn with
  | .bistate | .threestate | .saturation => f.args = []
  | .sigmoid | .sigmoidHip => f.args = [] ∨ ∃ l, f.args = [("lambda_val", .num l)]
  | .relm => f.args = [] ∨ ∃ l, ¬ l.eq (fin 0) ∧ f.args = [("lambda_val", .num l)]
  | .gceq | .lceq => f.args = [] ∨ ∃ w, f.args = [("weight", .num w)]
  | .fuzzy => False

theorem deq_zero {x : Ieee} (h : ¬ x.eq (fin 0)) : (x =? lit 0) = false := by
  rw [Bool.eq_false_iff, ne_eq, deq_iff, lit0]
  exact h

/-- `1 + e^t` is not 0. -/
theorem one_exp_ne (t : Ieee) : (((lit 1 : Ieee) + Arith.exp t) =? lit 0) = false := by
  refine deq_zero ?_
  by_cases h : t = nan
  · subst h
    rw [lit1, show (Arith.exp (nan : Ieee) : Ieee) = nan from F.exp_nan]
    exact id
  · have h1 := F.exp_nonneg t h
    rw [lit1]
    show ¬ Ieee.eq (Ieee.add (fin 1) (F.exp t)) _
    cases g : F.exp t with
    | nan => rw [g] at h1; exact h1.elim
    | ninf => rw [g] at h1; exact h1.elim
    | pinf => exact id
    | fin y =>
      rw [g] at h1
      have hy : (0 : ℝ) ≤ y := h1
      have h2 := F.mono 1 (1 + y) (by linarith)
      rw [show F.rd 1 = fin 1 by simpa using F.ints 1 (big_of (by decide))] at h2
      show ¬ Ieee.eq (F.rd (1 + y)) _
      cases hz : F.rd (1 + y) with
      | fin z =>
        rw [hz] at h2
        intro e
        have e : z = 0 := e
        have h2 : (1 : ℝ) ≤ z := h2
        linarith
      | _ => exact id

theorem plain_total {f : FnInfo Ieee} (h : PlainArgs f) (x : Ieee) : ∃ v, callActv f.fn x f.args = .ok v := by
  have sg (l : Ieee) : ∃ v, sigmoid x l = .ok v := by
    unfold sigmoid pdiv
    rw [one_exp_ne]
    exact ⟨_, rfl⟩
  have hp (l : Ieee) : ∃ v, sigmoidHip x l = .ok v := by
    unfold sigmoidHip pdiv
    split <;> rw [one_exp_ne] <;> exact ⟨_, rfl⟩
  have rl (l : Ieee) (h : ¬ l.eq (fin 0)) : ∃ v, relm x l = .ok v := by
    unfold relm pdiv
    rw [deq_zero h]
    split
    · exact ⟨_, rfl⟩
    · simp only [Bool.false_eq_true, if_false, bind, Except.bind]
      split <;> exact ⟨_, rfl⟩
  unfold PlainArgs at h
  cases hf : f.fn <;> rw [hf] at h <;> unfold callActv <;> simp only at h ⊢
  case bistate => rw [h]; exact ⟨_, rfl⟩
  case threestate => rw [h]; exact ⟨_, rfl⟩
  case saturation => rw [h]; exact ⟨_, rfl⟩
  case sigmoid => rcases h with e | ⟨l, e⟩ <;> rw [e] <;> exact sg _
  case sigmoidHip => rcases h with e | ⟨l, e⟩ <;> rw [e] <;> exact hp _
  case relm =>
    rcases h with e | ⟨l, hl, e⟩ <;> rw [e]
    · exact rl (lit 1) (by rw [lit1]; exact fun e => one_ne_zero (show (1 : ℝ) = 0 from e))
    · exact rl l hl
  case gceq => rcases h with e | ⟨l, e⟩ <;> rw [e] <;> exact ⟨_, rfl⟩
  case lceq => rcases h with e | ⟨l, e⟩ <;> rw [e] <;> exact ⟨_, rfl⟩

/-- C114: neither overflow nor NaN makes the iterative engine raise. -/
theorem C114_returns {m : FCM Ieee} (hr : CleanReachable m) (hd : m.debug = true)
    (hn : ∀ c n f, m.topology.get? c = some n → n.fn = some f → PlainArgs f) (hdec : m.decisionName ≠ "EXITED") :
    ∃ m', FCM.runInference true m = (.ok (), m') :=
  C75_accepting hr hd (fun c n f hc hf => ⟨fun hz => by
    have hok : f.Ok := (hr.reachable.inv.nodes _ _ hc).fn f hf
    have : f.fn = .fuzzy := by
      have := hok
      unfold FnInfo.Ok at this
      rw [hz] at this
      simpa [Activation.getFunctionByName] using this.symm
    have hp := hn c n f hc hf
    unfold PlainArgs at hp
    rw [this] at hp
    exact hp.elim, plain_total (hn c n f hc hf)⟩) hdec

end PyFCM
