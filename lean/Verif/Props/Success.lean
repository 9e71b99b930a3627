import Verif.Lemmas.Live
import Verif.Props.Vector
import Verif.Lemmas.Fuzzy
/-
C75: `run_inference` does not raise.
-/
namespace PyFCM
open Arith Spec

/-! ### The activation functions accept every real number -/

theorem fuzzySet_total {value : ℝ} {mb vl : List ℝ} (hs : vl.Pairwise (· ≤ ·)) (hlen : mb.length = vl.length)
    (h2 : 2 ≤ vl.length) : ∃ r, fuzzySet value mb vl = .ok r := by
  unfold fuzzySet
  have hne : vl ≠ [] := by intro h; rw [h] at h2; simp at h2
  obtain ⟨x0, rest, rfl⟩ := List.exists_cons_of_ne_nil hne
  obtain ⟨mn, e1⟩ : ∃ mn, pymin (x0 :: rest) = .ok mn := ⟨_, rfl⟩
  obtain ⟨mx, e2⟩ : ∃ mx, pymax (x0 :: rest) = .ok mx := ⟨_, rfl⟩
  generalize hvl : x0 :: rest = vl at *
  simp only [e1, e2, bind, Except.bind]
  generalize ((lit 0 ≤? mn) && (mn ≤? lit 1) && ((lit 0 ≤? mx) && (mx ≤? lit 1)) && (value <? lit 0)) = neg
  generalize (if neg = true then Arith.abs value else value) = v
  obtain ⟨s1, s2, s3⟩ := searchSorted_spec (v := v) hs
  generalize searchSorted vl v = i0 at *
  obtain ⟨idx, hidx⟩ : ∃ idx, idx = if i0 = vl.length then i0 - 1 else i0 := ⟨_, rfl⟩
  rw [← hidx]
  have hil : idx < vl.length := by split at hidx <;> omega
  have him : idx < mb.length := by omega
  have gv : vl[idx]? = some vl[idx] := List.getElem?_eq_getElem hil
  have gm : mb[idx]? = some mb[idx] := List.getElem?_eq_getElem him
  rw [njIdx_ok gv, njIdx_ok gm]
  simp only [real_eq, real_lt, pure, Except.pure]
  by_cases c1 : vl[idx] = v
  · rw [if_pos c1]; exact ⟨_, rfl⟩
  rw [if_neg c1]
  have hinterp : idx ≠ 0 → v < vl[idx] → i0 = idx → ∃ r, fuzzyInterp neg v mb vl (idx - 1) idx = .ok r := by
    intro hz hlt hi
    have hp : idx - 1 < vl.length := by omega
    have hpm : idx - 1 < mb.length := by omega
    have l0 : vl[idx - 1] < v := s2 _ hp (by omega)
    unfold fuzzyInterp
    obtain ⟨sg, hsg⟩ : ∃ sg, signOf v = .ok sg := by
      unfold signOf
      by_cases h0 : v = 0
      · rw [if_pos (by simpa using h0)]; exact ⟨_, rfl⟩
      · rw [if_neg (by simpa using h0), pdiv_real (by simpa using h0)]; exact ⟨_, rfl⟩
    rw [hsg, njIdx_ok (List.getElem?_eq_getElem hp), njIdx_ok (List.getElem?_eq_getElem hpm), njIdx_ok gv, njIdx_ok gm]
    simp only [bind, Except.bind]
    rw [pdiv_real (by linarith), pdiv_real (by linarith)]
    dsimp only
    split <;> exact ⟨_, rfl⟩
  by_cases c2 : idx = 0
  · rw [if_pos c2]
    have hle : v ≤ vl[idx] := s3 _ hil (by split at hidx <;> omega)
    rw [if_pos (lt_of_le_of_ne hle (Ne.symm c1))]
    exact ⟨_, rfl⟩
  rw [if_neg c2]
  by_cases c3 : idx = vl.length - 1
  · rw [if_pos c3]
    by_cases c4 : vl[idx] < v
    · rw [if_pos c4]; exact ⟨_, rfl⟩
    · rw [if_neg c4]
      refine hinterp c2 (lt_of_le_of_ne (not_lt.1 c4) (Ne.symm c1)) ?_
      split at hidx
      · exact absurd (s2 idx hil (by omega)) c4
      · exact hidx.symm
  · rw [if_neg c3]
    have hi : i0 = idx := by split at hidx <;> omega
    have hle : v ≤ vl[idx] := s3 _ hil (by omega)
    rw [if_neg (by simpa using hle)]
    exact hinterp c2 (lt_of_le_of_ne hle (Ne.symm c1)) hi

/-- The keyword arguments the functions expect: none or their own one (`relm` with a slope other than 0; `fuzzy` with
at least two ascending values and as many memberships). -/
def ProperArgs (f : FnInfo ℝ) : Prop := match f.fn with
  | .bistate | .threestate | .saturation => f.args = []
  | .sigmoid | .sigmoidHip => f.args = [] ∨ ∃ l, f.args = [("lambda_val", .num l)]
  | .relm => f.args = [] ∨ ∃ l, l ≠ 0 ∧ f.args = [("lambda_val", .num l)]
  | .gceq | .lceq => f.args = [] ∨ ∃ w, f.args = [("weight", .num w)]
  | .fuzzy => ∃ mb vl, (f.args = [("membership", .arr mb), ("val_list", .arr vl)] ∨
      f.args = [("val_list", .arr vl), ("membership", .arr mb)]) ∧ mb.length = vl.length ∧ 2 ≤ vl.length ∧
      vl.Pairwise (· ≤ ·)

theorem callActv_total {f : FnInfo ℝ} (h : ProperArgs f) (x : ℝ) : ∃ v, callActv f.fn x f.args = .ok v := by
  unfold ProperArgs at h
  cases hf : f.fn <;> rw [hf] at h <;> unfold callActv <;> simp only at h ⊢
  case bistate => rw [h]; exact ⟨_, rfl⟩
  case threestate => rw [h]; exact ⟨_, rfl⟩
  case saturation => rw [h]; exact ⟨_, rfl⟩
  case sigmoid => rcases h with e | ⟨l, e⟩ <;> rw [e] <;> exact ⟨_, sigmoid_real _ _⟩
  case sigmoidHip => rcases h with e | ⟨l, e⟩ <;> rw [e] <;> exact ⟨_, sigmoidHip_real _ _⟩
  case relm =>
    rcases h with e | ⟨l, hl, e⟩ <;> rw [e]
    · exact ⟨_, relm_real (l := lit 1) (by simp)⟩
    · exact ⟨_, relm_real hl⟩
  case gceq => rcases h with e | ⟨l, e⟩ <;> rw [e] <;> exact ⟨_, rfl⟩
  case lceq => rcases h with e | ⟨l, e⟩ <;> rw [e] <;> exact ⟨_, rfl⟩
  case fuzzy =>
    obtain ⟨mb, vl, e, h1, h2, h3⟩ := h
    obtain ⟨r, hr⟩ := fuzzySet_total (value := x) h3 h1 h2
    rcases e with e | e <;> rw [e] <;> exact ⟨r, hr⟩

/-! ### C75 -/

/-- The full claim: after a history without exceptions `run_inference()` returns. -/
def C75_full (α : Type) [Arith α] : Prop :=
  ∀ m : FCM α, CleanReachable m → m.debug = true → m.decisionName ≠ "EXITED" → (FCM.runInference true m).1 = .ok ()

/-- Every carrier: if no earlier call raised and every activation function accepts every input, the iterative engine
with LAST or MEAN returns. -/
theorem C75_accepting {α : Type} [Arith α] {m : FCM α} (hr : CleanReachable m) (hd : m.debug = true)
    (hn : ∀ c n f, m.topology.get? c = some n → n.fn = some f →
      (f.name = "fuzzy" → (n.actvSum =? lit 0) = false) ∧ ∀ x, ∃ v, callActv f.fn x f.args = .ok v)
    (hdec : m.decisionName ≠ "EXITED") : ∃ m', FCM.runInference true m = (.ok (), m') :=
  run_live hr.clean hd hn hdec

/-- Real arithmetic: it is enough that the functions have the arguments they expect, and that the weights into a fuzzy
concept do not sum up to 0. -/
theorem C75_succeeds {m : FCM ℝ} (hr : CleanReachable m) (hd : m.debug = true)
    (hn : ∀ c n f, m.topology.get? c = some n → n.fn = some f → ProperArgs f ∧ (f.name = "fuzzy" → n.actvSum ≠ 0))
    (hdec : m.decisionName ≠ "EXITED") : ∃ m', FCM.runInference true m = (.ok (), m') :=
  C75_accepting hr hd (fun c n f hc hf => ⟨fun hz => by simpa using (hn c n f hc hf).2 hz,
    callActv_total (hn c n f hc hf).1⟩) hdec

/-! ### Concrete cases -/

namespace Ex

/-- `FuzzyCognitiveMap(decision_function='LAST')`, otherwise with the default settings. -/
noncomputable def plain0 : FCM ℝ :=
  match FCM.new (decision := "LAST") with
  | .ok m => m
  | .error _ => default

theorem plain0_new : FCM.new (α := ℝ) (decision := "LAST") = .ok plain0 := rfl

noncomputable def plainOps (x : ℝ) : List (Op ℝ) :=
  [.addConcept "a" {}, .addConcept "b" { activation := some "relm" }, .addRelation "a" "b" (1/2),
    .addRelation "b" "a" (-1/2), .initConcept "a" x true]

/-- a (sigmoid_hip) and b (relm) with relations a -(1/2)-> b and b -(-1/2)-> a; a starts at `x`. -/
noncomputable def plain1 (x : ℝ) : FCM ℝ := runOps (plainOps x) plain0

theorem plain1_clean (x : ℝ) : CleanReachable (plain1 x) :=
  cleanReachable_of (.new plain0_new) (plainOps x) rfl

theorem plain1_keys (x : ℝ) : (plain1 x).topology.keys = ["a", "b"] := rfl

theorem plain1_fn {x : ℝ} {c : String} {n : Node ℝ} (h : (plain1 x).topology.get? c = some n) :
    n.fn = some ⟨.sigmoidHip, "sigmoid_hip", []⟩ ∨ n.fn = some ⟨.relm, "relm", []⟩ := by
  have hk : c ∈ (plain1 x).topology.keys := Dict.mem_keys_of_get? h
  rw [plain1_keys] at hk
  simp only [List.mem_cons, List.not_mem_nil, or_false] at hk
  rcases hk with rfl | rfl
  · cases h; exact .inl rfl
  · cases h; exact .inr rfl

theorem plain1_run (x : ℝ) : ∃ m', FCM.runInference true (plain1 x) = (.ok (), m') :=
  C75_succeeds (plain1_clean x) rfl
    (fun c n f hg hf => by
      rcases plain1_fn hg with e | e <;> rw [e] at hf <;> cases hf
      · exact ⟨.inl rfl, fun hz => absurd hz (show ¬ _ = _ by decide)⟩
      · exact ⟨.inl rfl, fun hz => absurd hz (show ¬ _ = _ by decide)⟩)
    (show "LAST" ≠ "EXITED" by decide)

def loneArgs : ConceptArgs ℚ where
  type := some TYPE_FUZZY
  activationDict := some [("membership", .list [0, 1]), ("val_list", .list [0, 1])]

/-- One fuzzy concept that no relation points at. -/
def lone : FCM ℚ := runOps [.addConcept "a" loneArgs] sat0
theorem lone_clean : CleanReachable lone := cleanReachable_of (.new sat0_new) _ (by decide +kernel)

end Ex

/-- A fuzzy concept without incoming relations makes `run_inference` raise ZeroDivisionError. -/
theorem C75_counterexample : ¬ C75_full ℚ := fun h => by
  have := h Ex.lone Ex.lone_clean (by decide +kernel) (by decide +kernel)
  have e : (FCM.runInference true Ex.lone).1 = .error .zeroDivision := by decide +kernel
  rw [e] at this
  cases this

end PyFCM
