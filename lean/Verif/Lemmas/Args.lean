import Verif.Model.Fcm
/-
Keyword call of an activation callable against the dispatch of its id on the argument vector.
-/
namespace PyFCM
open Arith

variable {α : Type} [Arith α]

/-- The id each callable is dispatched under. -/
def ActFn.id : ActFn → Nat
  | .bistate => FUNC_BISTATE
  | .threestate => FUNC_THREESTATE
  | .saturation => FUNC_SATURATION
  | .sigmoid => FUNC_SIGMOID
  | .sigmoidHip => FUNC_SIGMOID_HIP
  | .fuzzy => FUNC_FUZZY
  | .gceq => FUNC_GCEQ
  | .lceq => FUNC_LCEQ
  | .relm => FUNC_RELM

theorem getConst_eq (n : String) :
    Activation.getConstByName n = (Activation.getFunctionByName n).map ActFn.id := by
  unfold Activation.getConstByName Activation.getFunctionByName
  repeat' split
  all_goals first
    | rfl
    | (subst_vars; simp_all; done)
    | (subst_vars; rename_i h; exact absurd rfl h)
    | (subst_vars; contradiction)

theorem kw1_vect {p : String} {d x : α} {args : Args α} (h : kw1 p d args = .ok x) :
    (args = [] ∧ x = d) ∨ args = [(p, .num x)] := by
  unfold kw1 at h
  split at h
  · left; exact ⟨rfl, by simpa using h.symm⟩
  · split at h
    · right; simp only [Except.ok.injEq] at h; subst h; rename_i hk; rw [hk]
    · cases h
  · cases h

theorem vect_nil : processFunctionArgs ([] : Args α) = .ok [] := rfl

theorem vect_num (p : String) (x : α) : processFunctionArgs [(p, ArgVal.num x)] = .ok [x] := by
  simp [processFunctionArgs, Dict.keys, sortNames, insertName, concatArgs, Dict.get?, need, argValues, bind,
    Except.bind, pure, Except.pure]

theorem sort_mv : sortNames ["membership", "val_list"] = ["membership", "val_list"] := by decide
theorem sort_vm : sortNames ["val_list", "membership"] = ["membership", "val_list"] := by decide

theorem kwFuzzy_cases {args : Args α} {m v : List α} (h : kwFuzzy args = .ok (m, v)) :
    args = [("membership", .arr m), ("val_list", .arr v)] ∨
      args = [("val_list", .arr v), ("membership", .arr m)] := by
  unfold kwFuzzy at h
  split at h
  case isFalse => cases h
  case isTrue hl =>
    match args, hl with
    | [(k1, a1), (k2, a2)], _ =>
      by_cases h1 : k1 = "membership"
      · subst h1
        by_cases h2 : k2 = "val_list"
        · subst h2
          left
          have e1 : Dict.get? [("membership", a1), ("val_list", a2)] "membership" = some a1 := by simp [Dict.get?]
          have e2 : Dict.get? [("membership", a1), ("val_list", a2)] "val_list" = some a2 := by simp [Dict.get?]
          rw [e1, e2] at h
          split at h
          · rename_i x1 x2
            simp only [Option.some.injEq] at x1 x2
            simp only [Except.ok.injEq, Prod.mk.injEq] at h
            rw [x1, x2, h.1, h.2]
          · cases h
        · have e2 : Dict.get? [("membership", a1), (k2, a2)] "val_list" = none := by simp [Dict.get?, h2]
          rw [e2] at h
          split at h
          · rename_i x; cases x
          · cases h
      · by_cases h2 : k2 = "membership"
        · subst h2
          by_cases h3 : k1 = "val_list"
          · subst h3
            right
            have e1 : Dict.get? [("val_list", a1), ("membership", a2)] "membership" = some a2 := by
              simp [Dict.get?]
            have e2 : Dict.get? [("val_list", a1), ("membership", a2)] "val_list" = some a1 := by
              simp [Dict.get?]
            rw [e1, e2] at h
            split at h
            · rename_i x1 x2
              simp only [Option.some.injEq] at x1 x2
              simp only [Except.ok.injEq, Prod.mk.injEq] at h
              rw [x1, x2, h.1, h.2]
            · cases h
          · have e2 : Dict.get? [(k1, a1), ("membership", a2)] "val_list" = none := by simp [Dict.get?, h3]
            rw [e2] at h
            split at h
            · rename_i x; cases x
            · cases h
        · have e2 : Dict.get? [(k1, a1), (k2, a2)] "membership" = none := by simp [Dict.get?, h1, h2]
          rw [e2] at h
          split at h
          · rename_i x _; cases x
          · cases h

theorem kwFuzzy_vect {args : Args α} {m v : List α} (h : kwFuzzy args = .ok (m, v)) :
    processFunctionArgs args = .ok (m ++ v) := by
  rcases kwFuzzy_cases h with rfl | rfl
  · simp [processFunctionArgs, Dict.keys, sort_mv, concatArgs, Dict.get?, need, argValues, bind,
      Except.bind, pure, Except.pure]
  · simp [processFunctionArgs, Dict.keys, sort_vm, concatArgs, Dict.get?, need, argValues, bind,
      Except.bind, pure, Except.pure]

/-- The argument vector carries what the keywords carry. -/
theorem callActv_vect {f : ActFn} {x y : α} {args : Args α} (h : callActv f x args = .ok y)
    (hl : ∀ m v, kwFuzzy args = .ok (m, v) → m.length = v.length) :
    ∃ vect, processFunctionArgs args = .ok vect ∧ execActvFunction f.id x vect = .ok y := by
  cases f with
  | bistate =>
    cases args with
    | nil => exact ⟨_, vect_nil, h⟩
    | cons a l => cases h
  | threestate =>
    cases args with
    | nil => exact ⟨_, vect_nil, h⟩
    | cons a l => cases h
  | saturation =>
    cases args with
    | nil => exact ⟨_, vect_nil, h⟩
    | cons a l => cases h
  | sigmoid =>
    cases hk : kw1 "lambda_val" (lit 1 : α) args with
    | error e => simp only [callActv, hk, bind, Except.bind] at h; cases h
    | ok l =>
      simp only [callActv, hk, bind, Except.bind] at h
      rcases kw1_vect hk with ⟨rfl, rfl⟩ | rfl
      · exact ⟨_, vect_nil, h⟩
      · exact ⟨_, vect_num _ _, h⟩
  | sigmoidHip =>
    cases hk : kw1 "lambda_val" (lit 2 : α) args with
    | error e => simp only [callActv, hk, bind, Except.bind] at h; cases h
    | ok l =>
      simp only [callActv, hk, bind, Except.bind] at h
      rcases kw1_vect hk with ⟨rfl, rfl⟩ | rfl
      · exact ⟨_, vect_nil, h⟩
      · exact ⟨_, vect_num _ _, h⟩
  | relm =>
    cases hk : kw1 "lambda_val" (lit 1 : α) args with
    | error e => simp only [callActv, hk, bind, Except.bind] at h; cases h
    | ok l =>
      simp only [callActv, hk, bind, Except.bind] at h
      rcases kw1_vect hk with ⟨rfl, rfl⟩ | rfl
      · exact ⟨_, vect_nil, h⟩
      · exact ⟨_, vect_num _ _, h⟩
  | gceq =>
    cases hk : kw1 "weight" (lit (-1) : α) args with
    | error e => simp only [callActv, hk, bind, Except.bind] at h; cases h
    | ok l =>
      simp only [callActv, hk, bind, Except.bind] at h
      rcases kw1_vect hk with ⟨rfl, rfl⟩ | rfl
      · exact ⟨_, vect_nil, h⟩
      · exact ⟨_, vect_num _ _, h⟩
  | lceq =>
    cases hk : kw1 "weight" (lit 1 : α) args with
    | error e => simp only [callActv, hk, bind, Except.bind] at h; cases h
    | ok l =>
      simp only [callActv, hk, bind, Except.bind] at h
      rcases kw1_vect hk with ⟨rfl, rfl⟩ | rfl
      · exact ⟨_, vect_nil, h⟩
      · exact ⟨_, vect_num _ _, h⟩
  | fuzzy =>
    cases hk : kwFuzzy args with
    | error e => simp only [callActv, hk, bind, Except.bind] at h; cases h
    | ok p =>
      obtain ⟨m, v⟩ := p
      simp only [callActv, hk, bind, Except.bind] at h
      refine ⟨_, kwFuzzy_vect hk, ?_⟩
      have e : (m ++ v).length / 2 = m.length := by rw [List.length_append, ← hl m v hk]; omega
      show fuzzySet x ((m ++ v).take ((m ++ v).length / 2)) ((m ++ v).drop ((m ++ v).length / 2)) = _
      rw [e, List.take_left, List.drop_left]
      exact h

end PyFCM
