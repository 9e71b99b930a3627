import Verif.Lemmas.Mirror
import Verif.Props.Counts
/-
Two builds of the same columns in different orders.
-/
namespace PyFCM
open Arith Spec

set_option linter.unusedSectionVars false

variable {α : Type} [Arith α]

theorem forall₂_func {β γ : Type} {R : β → γ → Prop} (hR : ∀ a b c, R a b → R a c → b = c) :
    ∀ {xs : List β} {ys zs : List γ}, List.Forall₂ R xs ys → List.Forall₂ R xs zs → ys = zs
  | [], _, _, h, h' => by cases h; cases h'; rfl
  | _ :: _, _, _, h, h' => by
    cases h with
    | cons h1 h2 =>
      cases h' with
      | cons h3 h4 => rw [hR _ _ _ h1 h3, forall₂_func hR h2 h4]

/-- What is learned about a column depends only on the column and on whether it is a target. -/
theorem FeatureOf.func {cfg : GenConf α} {x : Ext α} {o : List String → List String} {ts ts' : List String} {feat : String}
    {col : Column α} {F F' : Feature α} {cs cs' : List (String × ConceptArgs α)} (ht : feat ∈ ts' ↔ feat ∈ ts)
    (h : FeatureOf cfg x ts feat col F cs) (h' : FeatureOf cfg { x with order := o } ts' feat col F' cs') :
    F' = F ∧ cs' = cs := by
  unfold FeatureOf at h h'
  split at h
  · rename_i hd
    rw [if_pos hd] at h'
    obtain ⟨a1, a2, a3, rfl⟩ := h
    obtain ⟨b1, b2, b3, rfl⟩ := h'
    have e : F' = F := by
      obtain ⟨t, n, d⟩ := F
      obtain ⟨t', n', d'⟩ := F'
      dsimp only at a1 a2 a3 b1 b2 b3
      rw [a1, a2, a3, b1, b2, b3]
      simp only [ht]
      rfl
    exact ⟨e, by rw [e]⟩
  · rename_i hd
    rw [if_neg hd] at h'
    obtain ⟨n, vl, memb, a0, -, a1, a2, a3, rfl⟩ := h
    obtain ⟨n', vl', memb', b0, -, b1, b2, b3, rfl⟩ := h'
    rw [a0] at b0
    cases b0
    have e : F' = F := by
      obtain ⟨t, nm, d⟩ := F
      obtain ⟨t', nm', d'⟩ := F'
      dsimp only at a1 a2 a3 b1 b2 b3
      have e3 : d' = d := forall₂_func (fun _ b c h h' => by rw [h] at h'; exact Except.ok.inj h') b3 a3
      rw [a1, a2, b1, b2, e3]
      simp only [ht]
    exact ⟨e, by rw [e]⟩

theorem Goes.swap {cfg : GenConf α} {fa fb : Feature α} {r : Arc α} (hmul : ∀ a b : α, a * b = b * a)
    (h : CrossArc cfg fa fb r) : CrossArc cfg fb fa r := by
  obtain ⟨h1, pa, ha, pb, hb, pq, qp, hc, h2⟩ := h
  refine ⟨by rw [sameGroup_comm]; exact h1, pb, hb, pa, ha, qp, pq, C36_swap hmul _ _ _ _ hc, ?_⟩
  rcases h2 with h2 | h2
  · exact .inr h2
  · exact .inl h2

theorem setAdd_foldl : ∀ (l acc : List String), (acc ++ l).Nodup → l.foldl (fun ks c => setAdd c ks) acc = acc ++ l
  | [], acc, _ => by simp
  | c :: l, acc, h => by
    have hc : c ∉ acc := by
      intro hc
      rw [List.nodup_append] at h
      exact h.2.2 c hc c (by simp) rfl
    rw [List.foldl_cons, setAdd, if_neg hc, setAdd_foldl l (acc ++ [c]) (by simpa using h)]
    simp

theorem inSum_perm [Exact α] {L L' : List (Arc α)} (h : L'.Perm L) (c : String) : inSum L' c = inSum L c := by
  have key : ∀ (l : List (Arc α)), l.foldl (fun s a => s + a.weight) (lit 0) = total (l.map Arc.weight) := by
    intro l
    unfold total
    rw [List.foldl_map]
  unfold inSum
  rw [key, key]
  exact total_perm ((h.filter _).map _)

theorem outOf_perm {L L' : List (Arc α)} (h : L'.Perm L) (c : String) : (outOf L' c).Perm (outOf L c) :=
  (h.filter _).map _

/-- The parts of two builds. -/
structure Permuted (W W' : List (Work α)) (L L' : List (Arc α)) : Prop where
  works : W'.Perm W
  arcs : L'.Perm L

section
variable {cfg : GenConf α} {x : Ext α} {o : List String → List String} {ts ts' : List String}
  {cols cols' : List (String × Column α)} {m0 m0' : FCM α} {W W' : List (Work α)} {L L' : List (Arc α)} {g g' : Gen α}

theorem Built.works_perm (hr : (cols.map (·.1)).Nodup) (hp : cols'.Perm cols)
    (ht : ∀ q ∈ cols, q.1 ∈ ts' ↔ q.1 ∈ ts) (hB : Built cfg x ts cols m0 W L g)
    (hB' : Built cfg { x with order := o } ts' cols' m0' W' L' g') : W'.Perm W := by
  have n1 : (W.map (·.1)).Nodup := by rw [hB.wnames]; exact hr
  have n2 : (W'.map (·.1)).Nodup := by rw [hB'.wnames]; exact (hp.map _).nodup_iff.2 hr
  rw [List.perm_ext_iff_of_nodup n2.of_map n1.of_map]
  intro w
  constructor
  · intro hw
    obtain ⟨p, hpm, e, hF⟩ := hB'.of_work hw
    have hpm := hp.mem_iff.1 hpm
    obtain ⟨v, hv, ev, hG⟩ := hB.of_col hpm
    obtain ⟨e1, e2⟩ := hG.func (ht p hpm) hF
    have : w = v := Prod.ext (by rw [e, ev]) (Prod.ext e1 e2)
    rw [this]; exact hv
  · intro hw
    obtain ⟨p, hpm, e, hF⟩ := hB.of_work hw
    obtain ⟨v, hv, ev, hG⟩ := hB'.of_col (hp.mem_iff.2 hpm)
    obtain ⟨e1, e2⟩ := hF.func (ht p hpm) hG
    have : w = v := Prod.ext (by rw [e, ev]) (Prod.ext e1.symm e2.symm)
    rw [this]; exact hv

theorem Built.permuted [Ordered α] (hmul : ∀ a b : α, a * b = b * a) (hr : Readable cfg x cols) (hp : cols'.Perm cols)
    (ht : ∀ q ∈ cols, q.1 ∈ ts' ↔ q.1 ∈ ts) (hB : Built cfg x ts cols m0 W L g)
    (hB' : Built cfg { x with order := o } ts' cols' m0' W' L' g') : Permuted W W' L L' := by
  have hw := Built.works_perm hr.columns hp ht hB hB'
  have hnd := hB.names_nodup hr
  have hnd' : (W'.flatMap Work.names).Nodup := (hw.flatMap_right _).nodup_iff.2 hnd
  have n1 : W.Nodup := by
    have : (W.map (·.1)).Nodup := by rw [hB.wnames]; exact hr.columns
    exact this.of_map
  refine ⟨hw, (List.perm_ext_iff_of_nodup (hB'.nodup hnd').of_map (hB.nodup hnd).of_map).2 fun r => ?_⟩
  rw [hB.mem, hB'.mem]
  have key : ∀ {A B : List (Work α)}, A.Nodup → B.Perm A → ∀ v w, [v, w].Sublist A → CrossArc cfg w.2.1 v.2.1 r →
      ∃ v w, [v, w].Sublist B ∧ CrossArc cfg w.2.1 v.2.1 r := by
    intro A B hA hAB v w hs hc
    have hne : v ≠ w := by
      have := hA.sublist hs
      simp at this; exact this
    have hm := hs.subset
    rcases pair_sublist (hAB.mem_iff.2 (hm (by simp))) (hAB.mem_iff.2 (hm (by simp : w ∈ [v, w]))) hne with h | h
    · exact ⟨v, w, h, hc⟩
    · exact ⟨w, v, h, Goes.swap hmul hc⟩
  constructor
  · rintro (⟨w, h1, h2⟩ | ⟨v, w, h1, h2⟩)
    · exact .inl ⟨w, hw.mem_iff.1 h1, h2⟩
    · exact .inr (key (hw.nodup_iff.2 n1) hw.symm v w h1 h2)
  · rintro (⟨w, h1, h2⟩ | ⟨v, w, h1, h2⟩)
    · exact .inl ⟨w, hw.mem_iff.2 h1, h2⟩
    · exact .inr (key n1 hw v w h1 h2)

/-- The nodes of the two maps. -/
theorem Built.nodes [Ordered α] [Exact α] (hmul : ∀ a b : α, a * b = b * a) (hr : Readable cfg x cols) (hp : cols'.Perm cols)
    (ht : ∀ q ∈ cols, q.1 ∈ ts' ↔ q.1 ∈ ts) (c0 : CleanInv m0) (c0' : CleanInv m0') (hb : m0'.bare = m0.bare)
    (t0 : m0.topology = []) (t0' : m0'.topology = []) (a0 : m0.arcList = []) (a0' : m0'.arcList = [])
    (hfit : m0.fitInclination = none) (hB : Built cfg x ts cols m0 W L g)
    (hB' : Built cfg { x with order := o } ts' cols' m0' W' L' g') {c : String} {a : Node α}
    (ha : g.fcm.topology.get? c = some a) :
    ∃ b, g'.fcm.topology.get? c = some b ∧ b.arcs.Perm a.arcs ∧ b = { a with arcs := b.arcs } := by
  obtain ⟨hw, hL⟩ := Built.permuted hmul hr hp ht hB hB'
  have hnd := hB.names_nodup hr
  have hnd' : (W'.flatMap Work.names).Nodup := (hw.flatMap_right _).nodup_iff.2 hnd
  have hlink : Linked g.fcm := hB.linked hnd (by rw [t0]; simp [Dict.keys]) c0
    (fun c n hn => by rw [t0] at hn; cases hn)
  have hlink' : Linked g'.fcm := hB'.linked hnd' (by rw [t0']; simp [Dict.keys]) c0'
    (fun c n hn => by rw [t0'] at hn; cases hn)
  have hc := Dict.mem_keys_of_get? ha
  rw [hB.keys, t0] at hc
  obtain ⟨w, hw1, hcw⟩ : ∃ w ∈ W, c ∈ w.names := by
    rcases hc with hc | hc
    · cases hc
    · exact hc
  obtain ⟨p, hpm, -, hF⟩ := hB.of_work hw1
  obtain ⟨q, hq, rfl⟩ : ∃ q ∈ w.2.2, q.1 = c := by
    have := FeatureOf.args hF
    rw [Work.names, ← this] at hcw
    obtain ⟨q, hq, e⟩ := List.mem_map.1 hcw
    exact ⟨q, hq, e⟩
  obtain ⟨n0, n, hb1, hg1, hk1⟩ := hB.born hnd w hw1 q hq
  obtain ⟨n0', n', hb2, hg2, hk2⟩ := hB'.born hnd' w (hw.mem_iff.2 hw1) q hq
  rw [ha] at hg1
  cases hg1
  have hd : m0'.default = m0.default := (congrArg FCM.default hb :)
  have hfi : m0'.fitInclination = m0.fitInclination := (congrArg FCM.fitInclination hb :)
  rw [hd] at hb2
  have en : n0' = n0 := by
    obtain ⟨k, h1, rfl⟩ := hb1
    obtain ⟨k', h2, rfl⟩ := hb2
    rw [h1] at h2
    cases h2
    rfl
  have e1 := hk1.2.2.2.2.1 hfit
  have e2 := hk2.2.2.2.2.1 (hfi.trans hfit)
  obtain ⟨l1, l2⟩ := hlink _ _ ha
  obtain ⟨l1', l2'⟩ := hlink' _ _ hg2
  have hA : g'.fcm.arcList.Perm g.fcm.arcList := by rw [hB.arcs, hB'.arcs, a0, a0']; simpa using hL
  refine ⟨n', hg2, by rw [l1, l1']; exact outOf_perm hA _, ?_⟩
  have hs : n'.actvSum = a.actvSum := by rw [l2, l2', inSum_perm hA]
  rw [e2, e1, en, hs]

end

end PyFCM
