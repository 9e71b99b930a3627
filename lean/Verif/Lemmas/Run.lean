import Verif.Lemmas.Invariant
import Verif.Spec.Stop
import Verif.Spec.Abstract
/-
`run_inference` with the iterative engine refines the recurrence.
-/
namespace PyFCM
open Arith Spec

set_option linter.unusedSectionVars false

variable {α : Type} [Arith α]

/-! ### loops over all concepts that touch one concept per round -/

/-- `m'` differs from `m` at most in what is stored for concept `c`. -/
structure Touch (c : String) (m m' : FCM α) : Prop where
  eq : m' = { m with topology := m'.topology, execution := m'.execution }
  keys : m'.topology.keys = m.topology.keys
  ekeys : c ∈ m.execution.keys → m'.execution.keys = m.execution.keys
  top : ∀ d, d ≠ c → m'.topology.get? d = m.topology.get? d
  exe : ∀ d, d ≠ c → m'.execution.get? d = m.execution.get? d

theorem Touch.refl (c : String) (m : FCM α) : Touch c m m := ⟨rfl, rfl, fun _ => rfl, fun _ _ => rfl, fun _ _ => rfl⟩

theorem Touch.setNode {c : String} {m : FCM α} (hc : c ∈ m.topology.keys) (n : Node α) :
    Touch c m { m with topology := m.topology.set c n } :=
  ⟨rfl, Dict.keys_set_of_mem _ _ _ hc, fun _ => rfl, fun _ hd => Dict.get?_set_ne _ _ (Ne.symm hd), fun _ _ => rfl⟩

theorem Touch.setBoth {c : String} {m : FCM α} (hc : c ∈ m.topology.keys) (n : Node α) (xs : List α) :
    Touch c m { m with topology := m.topology.set c n, execution := m.execution.set c xs } :=
  ⟨rfl, Dict.keys_set_of_mem _ _ _ hc, fun h => Dict.keys_set_of_mem _ _ _ h,
    fun _ hd => Dict.get?_set_ne _ _ (Ne.symm hd), fun _ hd => Dict.get?_set_ne _ _ (Ne.symm hd)⟩

theorem forEach_touch {f : String → PyM (FCM α) Unit}
    (R : String → Option (Node α) → Option (List α) → Option (Node α) → Option (List α) → Prop)
    (hf : ∀ c m m', f c m = (.ok (), m') → Touch c m m' ∧
      R c (m.topology.get? c) (m.execution.get? c) (m'.topology.get? c) (m'.execution.get? c))
    {ks : List String} (hnd : ks.Nodup) {m m' : FCM α} (h : PyM.forEach ks f m = (.ok (), m')) :
    m' = { m with topology := m'.topology, execution := m'.execution } ∧
    m'.topology.keys = m.topology.keys ∧
    ((∀ c ∈ ks, c ∈ m.execution.keys) → m'.execution.keys = m.execution.keys) ∧
    (∀ d, d ∉ ks → m'.topology.get? d = m.topology.get? d ∧ m'.execution.get? d = m.execution.get? d) ∧
    (∀ c ∈ ks, R c (m.topology.get? c) (m.execution.get? c) (m'.topology.get? c) (m'.execution.get? c)) := by
  induction ks generalizing m with
  | nil =>
    simp only [PyM.forEach] at h; cases h
    exact ⟨rfl, rfl, fun _ => rfl, fun _ _ => ⟨rfl, rfl⟩, fun c hc => by simp at hc⟩
  | cons k ks ih =>
    simp only [PyM.forEach] at h
    rw [List.nodup_cons] at hnd
    split at h
    · rename_i m1 h1
      obtain ⟨t, r⟩ := hf k m m1 h1
      obtain ⟨e, kt, ke, hout, hin⟩ := ih hnd.2 h
      refine ⟨by rw [e, t.eq], kt.trans t.keys, ?_, ?_, ?_⟩
      · intro hks
        have e1 := t.ekeys (hks k (by simp))
        rw [← e1]; apply ke
        intro c hc; rw [e1]; exact hks c (by simp [hc])
      · intro d hd
        rw [List.mem_cons, not_or] at hd
        obtain ⟨a, b⟩ := hout d hd.2
        exact ⟨a.trans (t.top d hd.1), b.trans (t.exe d hd.1)⟩
      · intro c hc
        rw [List.mem_cons] at hc
        rcases hc with rfl | hc
        · obtain ⟨a, b⟩ := hout c hnd.1
          rw [a, b]; exact r
        · have hne : c ≠ k := by rintro rfl; exact hnd.1 hc
          have := hin c hc
          rwa [t.top c hne, t.exe c hne] at this
    · cases h

/-! ### reset_execution -/

/-- What `reset_execution` does to one concept. -/
def ResetRel (_ : String) (n : Option (Node α)) (xs : Option (List α)) (n' : Option (Node α)) (xs' : Option (List α)) :
    Prop :=
  match n with
  | none => n' = none ∧ xs' = xs
  | some n => ∃ v rest, xs = some (v :: rest) ∧ n' = some (setVal v n) ∧ xs' = some [v]

theorem resetOne_touch (c : String) (m m' : FCM α) (h : resetOne c m = (.ok (), m')) :
    Touch c m m' ∧ ResetRel c (m.topology.get? c) (m.execution.get? c) (m'.topology.get? c) (m'.execution.get? c) := by
  unfold resetOne at h
  split at h
  · rename_i hn
    cases h
    rw [hn]
    exact ⟨Touch.refl _ _, rfl, rfl⟩
  · rename_i n hn
    dsimp only at h
    split at h
    · cases h
    · cases h
    · rename_i v rest hx
      cases h
      simp only [Dict.set_set]
      refine ⟨Touch.setBoth (Dict.mem_keys_of_get? hn) _ _, ?_⟩
      rw [hn]
      exact ⟨v, rest, hx, by simp [setVal], by simp⟩

theorem reset_spec {m m' : FCM α} (hm : Inv m) (h : FCM.resetExecution m = (.ok (), m')) :
    m' = { m with topology := m'.topology, execution := m'.execution } ∧
    m'.topology.keys = m.topology.keys ∧ m'.execution.keys = m.execution.keys ∧ SameKeys m ∧
    ∀ c ∈ m.topology.keys, ∃ n v rest, m.topology.get? c = some n ∧ m.execution.get? c = some (v :: rest) ∧
      m'.topology.get? c = some (setVal v n) ∧ m'.execution.get? c = some [v] := by
  obtain ⟨e, kt, ke, hout, hin⟩ := forEach_touch ResetRel resetOne_touch hm.tnd h
  have hall : ∀ c ∈ m.topology.keys, ∃ n v rest, m.topology.get? c = some n ∧
      m.execution.get? c = some (v :: rest) ∧ m'.topology.get? c = some (setVal v n) ∧
      m'.execution.get? c = some [v] := by
    intro c hc
    have := hin c hc
    obtain ⟨n, hn⟩ := Dict.exists_get?_of_mem hc
    rw [hn] at this
    obtain ⟨v, rest, a, b, d⟩ := this
    exact ⟨n, v, rest, hn, a, b, d⟩
  have hsub : ∀ c ∈ m.topology.keys, c ∈ m.execution.keys := by
    intro c hc
    obtain ⟨n, v, rest, _, hx, _⟩ := hall c hc
    exact Dict.mem_keys_of_get? hx
  exact ⟨e, kt, ke hsub, fun c => ⟨hsub c, hm.sub c⟩, hall⟩

/-! ### the decision loop -/

def DecideRel (f : DecFn) (extra : Nat) (_ : String) (n : Option (Node α)) (xs : Option (List α))
    (n' : Option (Node α)) (xs' : Option (List α)) : Prop :=
  xs' = xs ∧
  match n with
  | none => n' = none
  | some n => ∃ ys v, xs = some ys ∧ f.run ys ((ys.length : Int) - extra - 1) = .ok v ∧
      n' = some { n with value := v }

theorem decideNode_touch (f : DecFn) (extra : Nat) (c : String) (m m' : FCM α)
    (hf : m.decisionFn = f) (he : m.extraSteps = extra) (h : decideNode c m = (.ok (), m')) :
    Touch c m m' ∧
      DecideRel f extra c (m.topology.get? c) (m.execution.get? c) (m'.topology.get? c) (m'.execution.get? c) := by
  unfold decideNode at h
  split at h
  · rename_i hn
    cases h
    rw [hn]
    exact ⟨Touch.refl _ _, rfl, rfl⟩
  · rename_i n hn
    split at h
    · cases h
    · rename_i xs hx
      split at h
      · cases h
      · rename_i v hv
        cases h
        refine ⟨Touch.setNode (Dict.mem_keys_of_get? hn) _, rfl, ?_⟩
        rw [hn]
        exact ⟨xs, v, hx, by rw [← hf, ← he]; exact hv, by simp⟩

/-- `forEach_touch` for bodies that read settings which no round changes. -/
theorem forEach_touch' {f : String → PyM (FCM α) Unit} (I : FCM α → Prop)
    (hI : ∀ m m' : FCM α, I m → m' = { m with topology := m'.topology, execution := m'.execution } → I m')
    (R : String → Option (Node α) → Option (List α) → Option (Node α) → Option (List α) → Prop)
    (hf : ∀ c m m', I m → f c m = (.ok (), m') → Touch c m m' ∧
      R c (m.topology.get? c) (m.execution.get? c) (m'.topology.get? c) (m'.execution.get? c))
    {ks : List String} (hnd : ks.Nodup) {m m' : FCM α} (hm : I m) (h : PyM.forEach ks f m = (.ok (), m')) :
    m' = { m with topology := m'.topology, execution := m'.execution } ∧
    m'.topology.keys = m.topology.keys ∧
    ((∀ c ∈ ks, c ∈ m.execution.keys) → m'.execution.keys = m.execution.keys) ∧
    (∀ d, d ∉ ks → m'.topology.get? d = m.topology.get? d ∧ m'.execution.get? d = m.execution.get? d) ∧
    (∀ c ∈ ks, R c (m.topology.get? c) (m.execution.get? c) (m'.topology.get? c) (m'.execution.get? c)) := by
  induction ks generalizing m with
  | nil =>
    simp only [PyM.forEach] at h; cases h
    exact ⟨rfl, rfl, fun _ => rfl, fun _ _ => ⟨rfl, rfl⟩, fun c hc => by simp at hc⟩
  | cons k ks ih =>
    simp only [PyM.forEach] at h
    rw [List.nodup_cons] at hnd
    split at h
    · rename_i m1 h1
      obtain ⟨t, r⟩ := hf k m m1 hm h1
      obtain ⟨e, kt, ke, hout, hin⟩ := ih hnd.2 (hI _ _ hm t.eq) h
      refine ⟨by rw [e, t.eq], kt.trans t.keys, ?_, ?_, ?_⟩
      · intro hks
        have e1 := t.ekeys (hks k (by simp))
        rw [← e1]; apply ke
        intro c hc; rw [e1]; exact hks c (by simp [hc])
      · intro d hd
        rw [List.mem_cons, not_or] at hd
        obtain ⟨a, b⟩ := hout d hd.2
        exact ⟨a.trans (t.top d hd.1), b.trans (t.exe d hd.1)⟩
      · intro c hc
        rw [List.mem_cons] at hc
        rcases hc with rfl | hc
        · obtain ⟨a, b⟩ := hout c hnd.1
          rw [a, b]; exact r
        · have hne : c ≠ k := by rintro rfl; exact hnd.1 hc
          have := hin c hc
          rwa [t.top c hne, t.exe c hne] at this
    · cases h

theorem decideAll_spec {m m' : FCM α} (hm : Inv m) (h : FCM.decideAll m = (.ok (), m')) :
    m' = { m with topology := m'.topology } ∧ m'.topology.keys = m.topology.keys ∧
    ∀ c n, m.topology.get? c = some n → ∃ xs v, m.execution.get? c = some xs ∧
      m.decisionFn.run xs ((xs.length : Int) - m.extraSteps - 1) = .ok v ∧
      m'.topology.get? c = some { n with value := v } := by
  unfold FCM.decideAll at h
  obtain ⟨e, kt, ke, hout, hin⟩ := forEach_touch' (fun x => x.decisionFn = m.decisionFn ∧ x.extraSteps = m.extraSteps)
    (by intro a b hab e; rw [e]; exact hab) (DecideRel m.decisionFn m.extraSteps)
    (by intro c a b hab h; exact decideNode_touch _ _ c a b hab.1 hab.2 h) hm.tnd ⟨rfl, rfl⟩ h
  have hx : m'.execution = m.execution := by
    have hk : m'.execution.keys = m.execution.keys := by
      apply ke
      intro c hc
      obtain ⟨n, hn⟩ := Dict.exists_get?_of_mem hc
      have := (hin c hc).2
      rw [hn] at this
      obtain ⟨ys, v, hy, _⟩ := this
      exact Dict.mem_keys_of_get? hy
    refine Dict.ext_get? _ _ hk (by rw [hk]; exact hm.xnd) ?_
    intro d
    by_cases hd : d ∈ m.topology.keys
    · exact (hin d hd).1
    · exact (hout d hd).2
  refine ⟨by rw [e, hx], kt, ?_⟩
  intro c n hn
  have := (hin c (Dict.mem_keys_of_get? hn)).2
  rw [hn] at this
  exact this

/-! ### the recurrence -/

theorem net_congr {m m' : FCM α} (h : SameMap m m') : m'.net = m.net := by
  unfold FCM.net
  rw [h.arcList]
  congr 1
  funext c
  have := h.static c
  cases h1 : m'.topology.get? c with
  | none =>
    cases h2 : m.topology.get? c with
    | none => rfl
    | some n => simp [h1, h2] at this
  | some n' =>
    cases h2 : m.topology.get? c with
    | none => simp [h1, h2] at this
    | some n =>
      simp only [h1, h2, Option.map_some, Option.some.injEq] at this
      rw [Node.static_eq_iff] at this
      simp only [Option.bind_some]
      rw [this]; rfl

theorem arcInput_eq (ex : String) (k : Concept α) (h : k.rescale = (ex == "PAPAGEORGIUS")) (v w : α) :
    arcInput ex v w = source k v * w := by
  unfold arcInput source
  rw [h]
  by_cases hx : ex = "PAPAGEORGIUS" <;> simp [hx]

theorem contribs_eq_inputs {m : FCM α} {A : String → α}
    (hA : ∀ c n, m.topology.get? c = some n → n.value = A c)
    (hc : ∀ c n, m.topology.get? c = some n → n.toSpec ≠ none) (c : String) :
    contribs m.topology c m.arcList = inputs m.net A c := by
  unfold contribs inputs FCM.net
  simp only [List.filterMap_map]
  congr 1
  funext a
  obtain ⟨dst, w, o⟩ := a
  show arcContrib m.topology c ⟨dst, w, o⟩ = along _ A c ⟨o, dst, w⟩
  unfold arcContrib along
  by_cases hd : dst = c
  · rw [if_pos hd, if_pos hd]
    dsimp only
    cases h : m.topology.get? o with
    | none => rfl
    | some n =>
      have hn := hc _ n h
      have hv := hA _ n h
      simp only [Option.bind_some]
      unfold Node.toSpec at hn ⊢
      cases h1 : n.exec <;> simp only [h1] at hn ⊢
      · exact absurd rfl hn
      · cases h2 : n.useMem <;> simp only [h2] at hn ⊢
        · exact absurd rfl hn
        · cases h3 : n.fn <;> simp only [h3] at hn ⊢
          · exact absurd rfl hn
          · split
            · simp only [Option.map_some]
              rw [← hv]
              congr 1
              exact arcInput_eq _ _ rfl _ _
            · rfl
  · rw [if_neg hd, if_neg hd]

theorem execOk_run {ex : ExcFn × String} (h : ExecOk ex) (aux : List α) (v : α) (b : Bool) (k : Concept α)
    (hk : k.rescale = (ex.2 == "PAPAGEORGIUS")) :
    ex.1.run aux v b = if b then total aux + source k v else total aux := by
  obtain ⟨f, nm⟩ := ex
  unfold ExecOk Excitation.getByName at h
  dsimp only at h hk ⊢
  by_cases h1 : nm = "KOSKO"
  · subst h1
    simp only [if_true, Option.some.injEq] at h
    subst h
    have : k.rescale = false := by rw [hk]; decide
    simp [ExcFn.run, Excitation.kosko, source, this, total, pysum]
  · rw [if_neg h1] at h
    by_cases h2 : nm = "PAPAGEORGIUS"
    · subst h2
      simp only [if_true, Option.some.injEq] at h
      subst h
      have : k.rescale = true := by rw [hk]; decide
      simp [ExcFn.run, Excitation.papageorgius, source, this, total, pysum]
    · rw [if_neg h2] at h; cases h

theorem evalNode_toSpec {n : Node α} {r : α} (h : evalNode n = .ok r) : n.toSpec ≠ none := by
  unfold evalNode at h
  unfold Node.toSpec
  cases h1 : n.exec <;> simp only [h1] at h ⊢
  · cases h
  · cases h2 : n.useMem <;> simp only [h2] at h ⊢
    · cases h
    · cases h3 : n.fn <;> simp only [h3] at h ⊢
      · cases h
      · simp

theorem toSpec_aux (n : Node α) (xs : List α) : ({ n with aux := xs } : Node α).toSpec = n.toSpec := rfl

/-- One evaluation of a concept is one application of the recurrence. -/
theorem evalNode_eq_next {m : FCM α} {A : String → α} {c : String} {n : Node α} {r : α} (hm : Inv m)
    (hn : m.topology.get? c = some n) (hv : n.value = A c)
    (h : evalNode { n with aux := inputs m.net A c } = .ok r) : next m.net A c = some (.ok r) := by
  have hok := hm.nodes c n hn
  unfold evalNode at h
  unfold next
  have hcon : m.net.concept c = n.toSpec := by simp [FCM.net, hn]
  rw [hcon]
  unfold Node.toSpec
  cases h1 : n.exec with
  | none => simp only [h1] at h; cases h
  | some ex =>
    cases h2 : n.useMem with
    | none => simp only [h1, h2] at h; cases h
    | some um =>
      cases h3 : n.fn with
      | none => simp only [h1, h2, h3] at h; cases h
      | some f =>
        simp only [h1, h2, h3] at h
        simp only [Option.map_some, Option.some.injEq]
        have hrun := execOk_run (hok.exec ex h1) (inputs m.net A c) n.value um
          { active := n.active, rescale := ex.2 == "PAPAGEORGIUS", memory := um,
            divisor := if f.name = "fuzzy" then some n.actvSum else none,
            act := fun x => callActv f.fn x f.args } rfl
        rw [hrun, hv] at h
        by_cases hfz : f.name = "fuzzy"
        · simp only [hfz, if_true] at h ⊢
          unfold pdiv at h
          by_cases hz : n.actvSum =? lit 0
          · simp only [hz, if_true] at h; cases h
          · simp only [hz] at h ⊢
            exact h
        · simp only [hfz, if_false] at h ⊢
          exact h

/-! ### the run -/

/-- State of the iterative engine in the middle of a run started at `m0`. -/
structure Running (m0 m : FCM α) : Prop where
  same : SameMap m0 m
  inv : Inv m
  keys : SameKeys m
  aux : AuxEmpty m
  pos : 1 ≤ m.iterations
  value : ∀ c n, m.topology.get? c = some n → n.value = at' m.traj (m.iterations - 1) c
  run : IsRun m0.net m0.topology.keys m.traj m.iterations
  init : ∀ c ∈ m0.topology.keys, at' m.traj 0 c = at' m0.traj 0 c

/-- `m'`'s trajectories extend those of `m`. -/
def Extends (m m' : FCM α) : Prop := ∀ c t, t < m.iterations → at' m'.traj t c = at' m.traj t c

theorem stepOnce_running {m0 m m' : FCM α} (h0 : Running m0 m) (h : FCM.stepOnce m = (.ok (), m')) :
    Running m0 m' ∧ m'.iterations = m.iterations + 1 ∧ Extends m m' := by
  obtain ⟨hsame, hit, haux, hall⟩ := stepOnce_spec h0.inv.xnd h0.aux h0.keys h
  have hinv : Inv m' := by have := stepOnce_pres m h0.inv; rwa [h] at this
  have hkeys : SameKeys m' := by
    intro c; rw [hsame.keys, hsame.ekeys]; exact h0.keys c
  have htk : m.topology.keys = m0.topology.keys := h0.same.keys
  have hnet : m.net = m0.net := net_congr h0.same
  -- trajectories grow by one entry
  have htraj : ∀ c ∈ m0.topology.keys, ∃ r, m'.traj c = m.traj c ++ [r] ∧
      next m0.net (at' m.traj (m.iterations - 1)) c = some (.ok r) := by
    intro c hc
    obtain ⟨n, r, xs, hn, hx, hev, _, hx'⟩ := hall c ((h0.keys c).1 (by rw [htk]; exact hc))
    refine ⟨r, by simp [FCM.traj, hx, hx'], ?_⟩
    have hcomplete : ∀ d k, m.topology.get? d = some k → k.toSpec ≠ none := by
      intro d k hk
      obtain ⟨n', r', _, hn', _, hev', _⟩ := hall d ((h0.keys d).1 (Dict.mem_keys_of_get? hk))
      rw [hk] at hn'; cases hn'
      have := evalNode_toSpec hev'
      exact this
    have hcon := contribs_eq_inputs (A := at' m.traj (m.iterations - 1)) h0.value hcomplete c
    rw [hcon] at hev
    rw [← hnet]
    exact evalNode_eq_next h0.inv hn (h0.value c n hn) hev
  have hlen : ∀ c ∈ m0.topology.keys, (m.traj c).length = m.iterations := fun c hc => (h0.run c hc).1
  have hout : ∀ c, c ∉ m0.topology.keys → m'.traj c = m.traj c := by
    intro c hc
    have h1 : c ∉ m.execution.keys := fun hx => hc (by rw [← htk]; exact (h0.keys c).2 hx)
    have h2 : c ∉ m'.execution.keys := by rw [hsame.ekeys]; exact h1
    simp [FCM.traj, (Dict.get?_eq_none_iff _ _).2 h1, (Dict.get?_eq_none_iff _ _).2 h2]
  have hext : Extends m m' := by
    intro c t ht
    by_cases hc : c ∈ m0.topology.keys
    · obtain ⟨r, hr, _⟩ := htraj c hc
      have := hlen c hc
      simp only [at', hr, List.getD_eq_getElem?_getD]
      rw [List.getElem?_append_left (by omega)]
    · simp only [at', hout c hc]
  have hextf : ∀ t, t < m.iterations → at' m'.traj t = at' m.traj t := fun t ht => funext fun c => hext c t ht
  have hnew : ∀ c r, c ∈ m0.topology.keys → m'.traj c = m.traj c ++ [r] → at' m'.traj m.iterations c = r := by
    intro c r hc hr
    have := hlen c hc
    simp only [at', hr, List.getD_eq_getElem?_getD]
    rw [← this, List.getElem?_append_right (Nat.le_refl _)]
    simp
  refine ⟨⟨h0.same.trans hsame, hinv, hkeys, haux, by omega, ?_, ?_, ?_⟩, hit, hext⟩
  · intro c n hn
    have hc : c ∈ m.topology.keys := by rw [← hsame.keys]; exact Dict.mem_keys_of_get? hn
    obtain ⟨n0, r, xs, _, hx, _, ht', hx'⟩ := hall c ((h0.keys c).1 hc)
    rw [hn] at ht'; cases ht'
    rw [hit, Nat.add_sub_cancel]
    exact (hnew c r (by rw [← htk]; exact hc) (by simp [FCM.traj, hx, hx'])).symm
  · intro c hc
    obtain ⟨r, hr, hnx⟩ := htraj c hc
    refine ⟨by rw [hr, List.length_append, hlen c hc, hit]; rfl, ?_⟩
    intro t ht
    rw [hit] at ht
    have hp := h0.pos
    by_cases hlast : t + 1 = m.iterations
    · rw [hextf t (by omega), hlast, hnew c r hc hr]
      rw [show t = m.iterations - 1 by omega]
      exact hnx
    · rw [hextf t (by omega), hextf (t + 1) (by omega)]
      exact (h0.run c hc).2 t (by omega)
  · intro c hc
    rw [hext c 0 (by have := h0.pos; omega)]
    exact h0.init c hc

/-! ### the stop test -/

theorem stableLoop_eq {diff : α} {d : Dict (List α)} (h : ∀ p ∈ d, 2 ≤ p.2.length) :
    stableLoop diff d = .ok (d.all fun p =>
      !(diff <? abs (p.2.getD (p.2.length - 1) (lit 0) - p.2.getD (p.2.length - 2) (lit 0)))) := by
  induction d with
  | nil => rfl
  | cons p d ih =>
    obtain ⟨k, xs⟩ := p
    have hl := h (k, xs) (by simp)
    dsimp only at hl
    have e1 : pyIdxBack xs 1 = .ok (xs.getD (xs.length - 1) (lit 0)) := by
      have hlt : xs.length - 1 < xs.length := by omega
      unfold pyIdxBack pyIdx
      rw [if_pos (by omega)]
      simp [List.getD_eq_getElem?_getD, hlt]
    have e2 : pyIdxBack xs 2 = .ok (xs.getD (xs.length - 2) (lit 0)) := by
      have hlt : xs.length - 2 < xs.length := by omega
      unfold pyIdxBack pyIdx
      rw [if_pos (by omega)]
      simp [List.getD_eq_getElem?_getD, hlt]
    simp only [stableLoop, e1, e2, ih (fun q hq => h q (by simp [hq])), bind, Except.bind, pure, Except.pure,
      List.all_cons]
    cases hb : (diff <? abs (xs.getD (xs.length - 1) (lit 0) - xs.getD (xs.length - 2) (lit 0))) <;> rfl

theorem isStable_running {m0 m : FCM α} (h : Running m0 m) :
    ∃ b, m.isStable = .ok b ∧
      (b = true ↔ 1 < m.iterations ∧ Calm m.traj m0.topology.keys m0.stabilityDiff m.iterations) := by
  unfold FCM.isStable
  have hdiff := h.same.diff
  by_cases h1 : m.iterations > 1
  · rw [if_pos h1]
    have hx : ∀ p ∈ m.execution, p.2 = m.traj p.1 ∧ p.1 ∈ m0.topology.keys := by
      intro p hp
      have := Dict.get?_of_mem h.inv.xnd hp
      refine ⟨by simp [FCM.traj, this], ?_⟩
      rw [← h.same.keys]
      exact h.inv.sub _ (Dict.mem_keys_of_get? this)
    have hlen : ∀ p ∈ m.execution, p.2.length = m.iterations := by
      intro p hp
      rw [(hx p hp).1]; exact (h.run _ (hx p hp).2).1
    rw [stableLoop_eq (fun p hp => by rw [hlen p hp]; exact h1)]
    refine ⟨_, rfl, ?_⟩
    rw [List.all_eq_true, hdiff]
    constructor
    · intro hall
      refine ⟨h1, fun c hc => ?_⟩
      have hc' : c ∈ m.execution.keys := (h.keys c).1 (by rw [h.same.keys]; exact hc)
      obtain ⟨xs, hxs⟩ := Dict.exists_get?_of_mem hc'
      have hmem := Dict.get?_mem hxs
      have := hall _ hmem
      have hl := hlen _ hmem
      have ht := (hx _ hmem).1
      dsimp only at this hl ht
      rw [hl, ht] at this
      simpa [at'] using this
    · rintro ⟨_, hcalm⟩ p hp
      have := hcalm p.1 (hx p hp).2
      rw [hlen p hp, (hx p hp).1]
      simpa [at'] using this
  · rw [if_neg h1]
    exact ⟨false, rfl, by simp; omega⟩

/-- The test the loop of the iterative engine makes. -/
def QuietAt (m0 m : FCM α) (s : Nat) : Prop :=
  Quiet m.traj m0.topology.keys m0.maxIter m0.stopAtStabilize m0.stabilityDiff s

theorem keepExecution_running {m0 m : FCM α} (h : Running m0 m) :
    ∃ b, m.keepExecution = .ok b ∧ (b = true ↔ ¬ QuietAt m0 m m.iterations) := by
  unfold FCM.keepExecution QuietAt Quiet
  rw [h.same.maxIter, h.same.stop]
  by_cases h1 : (m.iterations : Int) ≥ m0.maxIter
  · rw [if_pos h1]
    exact ⟨false, rfl, by simp [h1]⟩
  · rw [if_neg h1]
    by_cases h2 : m0.stopAtStabilize = true
    · rw [if_pos h2]
      obtain ⟨b, hb, hiff⟩ := isStable_running h
      rw [hb]
      refine ⟨!b, rfl, ?_⟩
      simp only [h2, true_and]
      rw [← hiff]
      have h1' : ¬ m0.maxIter ≤ (m.iterations : Int) := h1
      simp [h1']
    · rw [if_neg h2]
      have h1' : ¬ m0.maxIter ≤ (m.iterations : Int) := h1
      exact ⟨true, rfl, by simp [h1', h2]⟩

/-- The loop invariant for the counter: the last `w - extra` tests were quiet, and no window was quiet before. -/
structure Counting (m0 m : FCM α) (w extra : Nat) : Prop where
  le : extra ≤ w
  cnt : w - extra < m.iterations
  window : ∀ s, m.iterations - (w - extra) ≤ s → s < m.iterations → QuietAt m0 m s
  before : m.iterations - (w - extra) = 1 ∨ ¬ QuietAt m0 m (m.iterations - (w - extra) - 1)
  least : ∀ l, w < l → l < m.iterations → ∃ s, l - w ≤ s ∧ s < l ∧ ¬ QuietAt m0 m s

theorem QuietAt.ext {m0 m m' : FCM α} (h : Extends m m') {s : Nat} (hs : s ≤ m.iterations) (hs0 : 1 ≤ s) :
    QuietAt m0 m' s ↔ QuietAt m0 m s := by
  unfold QuietAt Quiet Calm
  have e : ∀ c, at' m'.traj (s - 1) c = at' m.traj (s - 1) c := fun c => h c _ (by omega)
  have e2 : ∀ c, at' m'.traj (s - 2) c = at' m.traj (s - 2) c := fun c => h c _ (by omega)
  simp only [e, e2]

/-- One more step, after the engine asked whether to go on. -/
theorem Counting.step {m0 m m1 : FCM α} {w extra : Nat} {b : Bool} (hw : w = m0.extraSteps - 1) (hr : Running m0 m)
    (hc : Counting m0 m w extra) (hpos : extra > 0) (hiff : b = true ↔ ¬ QuietAt m0 m m.iterations)
    (h1 : FCM.stepOnce m = (.ok (), m1)) : Counting m0 m1 w (if b then m.extraSteps - 1 else extra - 1) := by
  obtain ⟨hr1, hit, hext⟩ := stepOnce_running hr h1
  have hq : ∀ s, s ≤ m.iterations → 1 ≤ s → (QuietAt m0 m1 s ↔ QuietAt m0 m s) :=
    fun s hs h0 => QuietAt.ext hext hs h0
  have hp := hr.pos
  have hes : m.extraSteps = m0.extraSteps := hr.same.extraSteps
  cases b with
  | true =>
    have hnq : ¬ QuietAt m0 m m.iterations := hiff.1 rfl
    simp only [if_true, hes, ← hw]
    refine ⟨Nat.le_refl _, by omega, ?_, ?_, ?_⟩
    · intro s h2 h3; omega
    · right
      rw [Nat.sub_self, Nat.sub_zero, hit, Nat.add_sub_cancel, hq _ (Nat.le_refl _) hp]
      exact hnq
    · intro l hl1 hl2
      by_cases hl : l < m.iterations
      · obtain ⟨s, a, b', c⟩ := hc.least l hl1 hl
        exact ⟨s, a, b', by rw [hq s (by omega) (by omega)]; exact c⟩
      · -- l = m.iterations : its window contains the test before the quiet ones
        have hl' : l = m.iterations := by omega
        subst hl'
        rcases hc.before with hb' | hb'
        · have := hc.le; omega
        · have := hc.le; have := hc.cnt
          by_cases hz : m.iterations - (w - extra) - 1 = 0
          · omega
          · exact ⟨m.iterations - (w - extra) - 1, by omega, by omega,
              by rw [hq _ (by omega) (by omega)]; exact hb'⟩
  | false =>
    have hqq : QuietAt m0 m m.iterations :=
      Classical.byContradiction fun hn => absurd (hiff.2 hn) (by decide)
    simp only [Bool.false_eq_true, if_false]
    have hle := hc.le
    have hcnt := hc.cnt
    refine ⟨by omega, by omega, ?_, ?_, ?_⟩
    · intro s h2 h3
      rw [hit] at h3 h2
      by_cases hs : s = m.iterations
      · subst hs; rw [hq _ (Nat.le_refl _) hp]; exact hqq
      · rw [hq s (by omega) (by omega)]; exact hc.window s (by omega) (by omega)
    · rw [hit]
      rcases hc.before with hb' | hb'
      · left; omega
      · by_cases hz : m.iterations - (w - extra) = 1
        · left; omega
        · right
          rw [show m.iterations + 1 - (w - (extra - 1)) - 1 = m.iterations - (w - extra) - 1 by omega,
            hq _ (by omega) (by omega)]
          exact hb'
    · intro l hl1 hl2
      by_cases hl : l < m.iterations
      · obtain ⟨s, a, b', c⟩ := hc.least l hl1 hl
        exact ⟨s, a, b', by rw [hq s (by omega) (by omega)]; exact c⟩
      · have hl' : l = m.iterations := by omega
        subst hl'
        rcases hc.before with hb' | hb'
        · omega
        · by_cases hz : m.iterations - (w - extra) - 1 = 0
          · omega
          · exact ⟨m.iterations - (w - extra) - 1, by omega, by omega,
              by rw [hq _ (by omega) (by omega)]; exact hb'⟩

theorem iterLoop_running {m0 : FCM α} {w : Nat} (hw : w = m0.extraSteps - 1) (fuel extra : Nat) (m m' : FCM α)
    (hr : Running m0 m) (hc : Counting m0 m w extra) (hx0 : extra = 0 → w = 0 ∨ w < m.iterations)
    (h : FCM.iterLoop fuel extra m = (.ok (), m')) :
    Running m0 m' ∧ Counting m0 m' w 0 := by
  induction fuel generalizing extra m with
  | zero =>
    unfold FCM.iterLoop at h
    split at h
    · cases h
    · cases h
      have : extra = 0 := by omega
      subst this
      exact ⟨hr, hc⟩
  | succ f ih =>
    unfold FCM.iterLoop at h
    split at h
    · rename_i hpos
      obtain ⟨b, hb, hiff⟩ := keepExecution_running hr
      rw [hb] at h
      dsimp only at h
      split at h
      · cases h
      · rename_i m1 h1
        obtain ⟨hr1, hit, hext⟩ := stepOnce_running hr h1
        have hp := hr.pos
        have hes : m.extraSteps = m0.extraSteps := hr.same.extraSteps
        refine ih _ _ hr1 ?_ ?_ h
        · exact hc.step hw hr hpos hiff h1
        · intro hx
          cases b with
          | true => simp only [if_true, hes, ← hw] at hx; left; omega
          | false =>
            simp only [Bool.false_eq_true, if_false] at hx
            right
            have := hc.cnt
            omega
    · cases h
      have : extra = 0 := by omega
      subst this
      exact ⟨hr, hc⟩

theorem Counting.stops {m0 m : FCM α} {w : Nat} (h : Counting m0 m w 0) : StopsAt (QuietAt m0 m) w m.iterations :=
  ⟨h.cnt, fun s h1 h2 => h.window s h1 h2, h.least⟩

/-- The iterative engine started on a freshly reset map. -/
theorem iterative_spec {m m' : FCM α} (hm : Inv m) (hk : SameKeys m) (ha : AuxEmpty m)
    (hx : ∀ c n, m.topology.get? c = some n → m.execution.get? c = some [n.value])
    (h : FCM.iterativeInference m = (.ok (), m')) :
    Running { m with iterations := 1 } m' ∧
      StopsAt (QuietAt { m with iterations := 1 } m') (m.extraSteps - 1) m'.iterations := by
  unfold FCM.iterativeInference at h
  have htr : ∀ c ∈ m.topology.keys, (m.traj c).length = 1 := by
    intro c hc
    obtain ⟨n, hn⟩ := Dict.exists_get?_of_mem hc
    simp [FCM.traj, hx c n hn]
  have hr0 : Running { m with iterations := 1 } { m with iterations := 1 } := by
    refine ⟨SameMap.refl _, hm.congr rfl rfl rfl rfl rfl rfl rfl rfl, hk, ha, Nat.le_refl _, ?_, ?_, fun _ _ => rfl⟩
    · intro c n hn
      have := hx c n hn
      simp [at', FCM.traj, this]
    · intro c hc
      exact ⟨htr c hc, fun t ht => by simp at ht⟩
  have hc0 : Counting { m with iterations := 1 } { m with iterations := 1 } (m.extraSteps - 1) (m.extraSteps - 1) := by
    refine ⟨Nat.le_refl _, by simp, ?_, ?_, ?_⟩
    · intro s h1 h2
      simp at h1 h2; omega
    · left; simp
    · intro l h1 h2; simp at h2; omega
  obtain ⟨hr, hcn⟩ := iterLoop_running (m0 := { m with iterations := 1 }) (w := m.extraSteps - 1) rfl _ _ _ _ hr0 hc0 (fun h => Or.inl h) h
  exact ⟨hr, hcn.stops⟩

end PyFCM
