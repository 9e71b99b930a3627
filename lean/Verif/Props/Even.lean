import Verif.Props.Energy
import Verif.Props.Reorder
import Verif.Props.Extend
/-
C128: with a measure that does not tell premise and conclusion apart (support, lift and both odds ratios) a table teaches influence
in both directions with the same weight; where only one direction is wanted, it teaches nothing inside a group of columns.
-/
namespace PyFCM
open Arith Spec

set_option linter.unusedSectionVars false

variable {α : Type} [Arith α]

/-- The measure stays the same if premise and conclusion change places. -/
def Spec.EvenMeasure (f : α → α → α → α → Except Err α) : Prop := ∀ pq pnq npq npnq, f pq pnq npq npnq = f pq npq pnq npnq

/-! ### The measures -/

theorem real_pdiv (a b : ℝ) : pdiv a b = if b = 0 then .error .zeroDivision else .ok (a / b) := by
  unfold pdiv
  simp

/-- C128: support, lift and the two odds ratios do not tell premise and conclusion apart. -/
theorem C128_supp : EvenMeasure (Relation.supp (α := ℝ)) := by
  intro a b c d
  unfold Relation.supp
  rw [show a + b + c + d = a + c + b + d by ring]

theorem C128_rodr : EvenMeasure (Relation.rodr (α := ℝ)) := by
  intro a b c d
  unfold Relation.rodr
  rw [add_comm b c]

theorem C128_odr : EvenMeasure (Relation.odr (α := ℝ)) := by
  intro a b c d
  unfold Relation.odr
  rw [mul_comm b c]

theorem C128_lift : EvenMeasure (Relation.lift (α := ℝ)) := by
  intro a b c d
  have key : ∀ a b c d : ℝ, Relation.lift a b c d =
      if a + b = 0 ∨ a + c = 0 ∨ a + b + c + d = 0 then .error .zeroDivision
      else .ok (a * (a + b + c + d) / ((a + b) * (a + c))) := by
    intro a b c d
    unfold Relation.lift
    simp only [real_pdiv]
    by_cases h1 : a + b = 0
    · simp [h1]; rfl
    by_cases h2 : a + b + c + d = 0
    · simp [h1, h2]; rfl
    by_cases h3 : a + c = 0
    · simp only [h1, h2, h3, if_false, zero_div, or_true, true_or, if_true]
      show (if (0 : ℝ) = 0 then _ else _) = _
      rw [if_pos rfl]
    simp only [h1, h2, h3, if_false, or_self]
    show (if (a + c) / (a + b + c + d) = 0 then _ else _) = _
    rw [if_neg (div_ne_zero h3 h2)]
    congr 1
    field_simp
  rw [key, key, show a + c + b + d = a + b + c + d by ring, mul_comm (a + c)]
  congr 1
  rw [eq_iff_iff]
  tauto

/-- C128: confidence, positive influence, `bayes` and `simple` do. -/
theorem C128_uneven : ¬ EvenMeasure (Relation.conf (α := ℚ)) ∧ ¬ EvenMeasure (Relation.posInf (α := ℚ)) ∧
    ¬ EvenMeasure (Relation.bayes (α := ℚ)) ∧ ¬ EvenMeasure (Relation.simple (α := ℚ)) := by
  have key : ∀ f : ℚ → ℚ → ℚ → ℚ → Except Err ℚ, f 2 1 0 1 ≠ f 2 0 1 1 → ¬ EvenMeasure f := fun f h e => h (e 2 1 0 1)
  exact ⟨key _ (by decide +kernel), key _ (by decide +kernel), key _ (by decide +kernel), key _ (by decide +kernel)⟩

/-! ### What is learned -/

theorem coef_swap {a b : List α} {p q : Coef α} (h : calcCoef a b = some (p, q)) : q = ⟨p.pq, p.npq, p.pnq, p.npnq⟩ := by
  unfold calcCoef at h
  split at h
  · rw [Option.some.injEq, Prod.mk.injEq] at h
    rw [← h.2, ← h.1]
  · cases h

theorem Weighs.swap {cfg : GenConf α} (hc : EvenMeasure cfg.causality) (he : EvenMeasure cfg.evaluation) {s : α} {p : Coef α}
    {w : α} (h : Weighs cfg s p w) : Weighs cfg s ⟨p.pq, p.npq, p.pnq, p.npnq⟩ w := by
  obtain ⟨e, v, h1, h2, h3, h4⟩ := h
  exact ⟨e, v, by rw [← h1]; exact he _ _ _ _, h2, by rw [← h3]; exact hc _ _ _ _, h4⟩

theorem relSign_swap {cfg : GenConf α} (hs : ∀ f, cfg.sign = some f → EvenMeasure f) (p : Coef α) :
    relSign cfg ⟨p.pq, p.npq, p.pnq, p.npnq⟩ = relSign cfg p := by
  unfold relSign
  cases h : cfg.sign with
  | none => rfl
  | some f => simp only; rw [hs f h p.pq p.npq p.pnq p.npnq]

theorem Weighs.unswap {cfg : GenConf α} (hc : EvenMeasure cfg.causality) (he : EvenMeasure cfg.evaluation) {s : α} {p : Coef α}
    {w : α} (h : Weighs cfg s ⟨p.pq, p.npq, p.pnq, p.npnq⟩ w) : Weighs cfg s p w := Weighs.swap hc he h

theorem CrossArc.back {cfg : GenConf α} (hd : cfg.double = true) (hc : EvenMeasure cfg.causality)
    (he : EvenMeasure cfg.evaluation) (hs : ∀ f, cfg.sign = some f → EvenMeasure f) {fa fb : Feature α} {r : Arc α}
    (h : CrossArc cfg fa fb r) : CrossArc cfg fa fb ⟨r.origin, r.weight, r.dest⟩ := by
  obtain ⟨h1, pa, ha, pb, hb, pq, qp, hcf, h2⟩ := h
  have hgo : ∀ f g p q, Goes cfg f g p q := fun f g p q => by unfold Goes; rw [if_pos hd]; trivial
  refine ⟨h1, pa, ha, pb, hb, pq, qp, hcf, ?_⟩
  have e := coef_swap hcf
  rcases h2 with ⟨s, w, rfl, h3, -, h4⟩ | ⟨s, w, rfl, h3, -, h4⟩
  · exact .inr ⟨s, w, rfl, by rw [e, relSign_swap hs]; exact h3, hgo _ _ _ _, by rw [e]; exact h4.swap hc he⟩
  · rw [e] at h3 h4
    exact .inl ⟨s, w, rfl, by rw [← relSign_swap hs]; exact h3, hgo _ _ _ _, h4.unswap hc he⟩

section learned
variable {cfg : GenConf α} {x : Ext α} {ts : List String} {cols : List (String × Column α)} {given : Option (FCM α)} {fit : Bool}
  {g0 g : Gen α}

/-- C128: with such measures every relation that is learned is learned in both directions, with the same weight. -/
theorem C128_both [Ordered α] (hd : cfg.double = true) (hc : EvenMeasure cfg.causality) (he : EvenMeasure cfg.evaluation)
    (hs : ∀ f, cfg.sign = some f → EvenMeasure f) (hx : ∀ l, (x.order l).Perm l) (hr : Readable cfg x cols)
    (hg : ∀ m, given = some m → m.arcList = []) (h0 : Gen.new fit = .ok g0) (h : Gen.build cfg x ts cols given g0 = (.ok (), g))
    (a b : String) (w : α) : (⟨b, w, a⟩ : Arc α) ∈ g.fcm.arcList ↔ (⟨a, w, b⟩ : Arc α) ∈ g.fcm.arcList := by
  obtain ⟨m0, h1, h2⟩ := build_from h0 h
  obtain ⟨W, L, hB⟩ := buildFcm_built hx hr.columns h1
  have hnd := hB.names_nodup hr
  have hWn := (List.nodup_flatMap.1 hnd).1
  have e : g.fcm.arcList = L := by rw [hB.arcs, start_arcs hg h2]; rfl
  rw [e]
  have key : ∀ a b : String, (⟨b, w, a⟩ : Arc α) ∈ L → (⟨a, w, b⟩ : Arc α) ∈ L := by
    intro a b hm
    refine (hB.mem _).2 ?_
    rcases (hB.mem _).1 hm with ⟨v, hv, hm⟩ | ⟨v, u, hsub, hm⟩
    · refine .inl ⟨v, hv, ?_⟩
      unfold exclArcs at hm ⊢
      split at hm
      · cases hm
      · rename_i hz
        rw [if_neg hz]
        obtain ⟨k1, k2, k3, k4⟩ := (mem_innerArcs (hWn v hv)).1 hm
        exact (mem_innerArcs (hWn v hv)).2 ⟨k1, k3, k2, Ne.symm k4⟩
    · exact .inr ⟨v, u, hsub, hm.back hd hc he hs⟩
  exact ⟨key a b, key b a⟩

/-- C128: if only one direction is wanted, every relation between the concepts of two columns leads from a column that is no target to
a target; between two columns of the same group nothing is learned, however strong the association. -/
theorem C128_one [Ordered α] (hd : cfg.double = false) (hc : EvenMeasure cfg.causality) (hx : ∀ l, (x.order l).Perm l)
    (hr : Readable cfg x cols) (hg : ∀ m, given = some m → m.arcList = []) (h0 : Gen.new fit = .ok g0)
    (h : Gen.build cfg x ts cols given g0 = (.ok (), g)) {r : Arc α} (hm : r ∈ g.fcm.arcList) {p q : String × Column α}
    (hp : p ∈ cols) (hq : q ∈ cols) (hpo : ConceptOf cfg x p r.origin) (hqo : ConceptOf cfg x q r.dest) (hpq : p.1 ≠ q.1) :
    p.1 ∉ ts ∧ q.1 ∈ ts := by
  obtain ⟨m0, h1, h2⟩ := build_from h0 h
  obtain ⟨W, L, hB⟩ := buildFcm_built hx hr.columns h1
  have hnd := hB.names_nodup hr
  have hWn := (List.nodup_flatMap.1 hnd).1
  have e : g.fcm.arcList = L := by rw [hB.arcs, start_arcs hg h2]; rfl
  rw [e] at hm
  obtain ⟨wp, hwp, ep, hFp⟩ := hB.of_col hp
  obtain ⟨wq, hwq, eq', hFq⟩ := hB.of_col hq
  have hpn := (mem_names hFp _).2 hpo
  have hqn := (mem_names hFq _).2 hqo
  have own : ∀ {u v : Work α}, u ∈ W → v ∈ W → ∀ {c}, c ∈ u.names → c ∈ v.names → u.1 = v.1 := by
    intro u v hu hv c h3 h4
    by_contra hne
    exact disjoint_names hnd hu hv hne c h3 h4
  have hWk : (W.map (·.1)).Nodup := by rw [hB.wnames]; exact hr.columns
  have same : ∀ {u v : Work α}, u ∈ W → v ∈ W → ∀ {c}, c ∈ u.names → c ∈ v.names → u = v := fun hu hv _ h3 h4 =>
    List.inj_on_of_nodup_map hWk hu hv (own hu hv h3 h4)
  have goes : ∀ {F G : Feature α} {cs ds pq qp}, FeatureOf cfg x ts p.1 p.2 F cs → FeatureOf cfg x ts q.1 q.2 G ds →
      qp = (⟨pq.pq, pq.npq, pq.pnq, pq.npnq⟩ : Coef α) → Goes cfg F G pq qp → p.1 ∉ ts ∧ q.1 ∈ ts := by
    intro F G cs ds pq qp hF hG ec hgo
    unfold Goes at hgo
    rw [hd] at hgo
    simp only [Bool.false_eq_true, if_false] at hgo
    split at hgo
    · exfalso
      obtain ⟨u, v, k1, k2, k3⟩ := hgo
      rw [ec] at k2
      have : u = v := by
        rw [hc] at k1
        exact Except.ok.inj (k1.symm.trans k2)
      rw [this, Ordered.lt.irrefl] at k3
      cases k3
    · rename_i hsg
      have hp' : p.1 ∉ ts := fun hh => by rw [(isTarget_iff hF).2 hh] at hgo; cases hgo
      refine ⟨hp', ?_⟩
      by_contra hq'
      exact hsg ((sameGroup_iff hF hG).2 ⟨fun hh => absurd hh hp', fun hh => absurd hh hq'⟩)
  rcases (hB.mem r).1 hm with ⟨w, hw, hm⟩ | ⟨v, u, hsub, hm⟩
  · exfalso
    unfold exclArcs at hm
    split at hm
    · cases hm
    · obtain ⟨-, k2, k3, -⟩ := (mem_innerArcs (hWn w hw)).1 hm
      exact hpq (by rw [← ep, ← eq', ← own hw hwp k2 hpn, ← own hw hwq k3 hqn])
  · have hv : v ∈ W := hsub.subset (by simp)
    have hu : u ∈ W := hsub.subset (by simp)
    obtain ⟨-, pa, hpa, pb, hpb, pq, qp, hcf, h3⟩ := hm
    have ec := coef_swap hcf
    have ec' : pq = ⟨qp.pq, qp.npq, qp.pnq, qp.npnq⟩ := by rw [ec]
    rcases h3 with ⟨s, w', rfl, -, hgo, -⟩ | ⟨s, w', rfl, -, hgo, -⟩
    · obtain rfl := same hu hwp (mem_names_of_rows hpa) hpn
      obtain rfl := same hv hwq (mem_names_of_rows hpb) hqn
      exact goes hFp hFq ec hgo
    · obtain rfl := same hv hwp (mem_names_of_rows hpb) hpn
      obtain rfl := same hu hwq (mem_names_of_rows hpa) hqn
      exact goes hFp hFq ec' hgo

/-! ### Inference on what is learned -/

theorem born_flags {d : DefaultConcept α} {a : ConceptArgs α} {n : Node α} (ha : a.isActive = some true)
    (he : a.excitation = none) (h : Born d a n) : n.active = true ∧ n.exec = some d.exec := by
  obtain ⟨n0, h0, rfl⟩ := h
  obtain ⟨ex, ad, f, cu, v, h1, -, -, h2⟩ := buildNode_ok h0
  rw [he] at h1
  have k1 := congrArg Node.active h2
  have k2 := congrArg Node.exec h2
  refine ⟨?_, ?_⟩
  · rw [ha] at k1; exact k1
  · rw [← h1]; exact k2

/-- The concepts of a learned map are all active and all have the excitation function of the map. -/
theorem learned_flags [Ordered α] (hx : ∀ l, (x.order l).Perm l) (hr : Readable cfg x cols)
    (hg : ∀ m, given = some m → m.topology = []) (h0 : Gen.new fit = .ok g0) (h : Gen.build cfg x ts cols given g0 = (.ok (), g)) :
    ∃ e, ∀ c n, g.fcm.topology.get? c = some n → n.active = true ∧ n.exec = some e := by
  obtain ⟨m0, h1, h2⟩ := build_from h0 h
  obtain ⟨W, L, hB⟩ := buildFcm_built hx hr.columns h1
  have hnd := hB.names_nodup hr
  have t0 : m0.topology = [] := by
    rcases h2 with h2 | ⟨-, h2⟩
    · exact hg m0 h2
    · exact (new_empty h2).1
  refine ⟨m0.default.exec, fun c n hn => ?_⟩
  have hk := (hB.keys c).1 (Dict.mem_keys_of_get? hn)
  rw [t0] at hk
  obtain ⟨w, hw, hcw⟩ := hk.resolve_left (by simp [Dict.keys])
  obtain ⟨p, hp, -, hF⟩ := hB.of_work hw
  have hargs := hF.args
  rw [Work.names, ← hargs] at hcw
  obtain ⟨q, hq, rfl⟩ := List.mem_map.1 hcw
  obtain ⟨n0, n', hb, hn', hkin⟩ := hB.born hnd w hw q hq
  rw [hn] at hn'
  obtain rfl := Option.some.inj hn'
  have hqa : q.2.isActive = some true ∧ q.2.excitation = none := by
    unfold FeatureOf at hF
    split at hF
    · rw [hF.2.2.2] at hq
      obtain ⟨_, _, rfl⟩ := List.mem_map.1 hq
      exact ⟨rfl, rfl⟩
    · obtain ⟨_, _, _, -, -, -, -, -, hcs⟩ := hF
      rw [hcs] at hq
      obtain ⟨_, _, rfl⟩ := List.mem_map.1 hq
      exact ⟨rfl, rfl⟩
  obtain ⟨k1, k2⟩ := born_flags hqa.1 hqa.2 hb
  exact ⟨hkin.2.2.1.trans k1, hkin.2.2.2.2.2.1.trans k2⟩

omit [Arith α] in
theorem weights_single {L : List (Rel α)} (hn : (L.map fun r => (r.origin, r.dest)).Nodup) {r : Rel α} (hr : r ∈ L) :
    (L.filterMap fun s => if s.origin = r.origin ∧ s.dest = r.dest then some s.weight else none) = [r.weight] := by
  induction L with
  | nil => cases hr
  | cons a L ih =>
    rw [List.map_cons, List.nodup_cons] at hn
    rcases List.mem_cons.1 hr with rfl | hr
    · rw [List.filterMap_cons_some (b := r.weight) (by simp)]
      congr 1
      rw [List.filterMap_eq_nil_iff]
      intro b hb
      rw [if_neg]
      intro e
      exact hn.1 (List.mem_map.2 ⟨b, hb, by rw [e.1, e.2]⟩)
    · rw [List.filterMap_cons_none, ih hn.2 hr]
      rw [if_neg]
      intro e
      exact hn.1 (List.mem_map.2 ⟨r, hr, by rw [e.1, e.2]⟩)

/-- Relations in both directions with the same weights between concepts that send alike are mutual influence. -/
theorem mutual_of {N : Net α} {cs : List String} {b b' : Bool}
    (hN : ∀ c ∈ cs, ∃ k, N.concept c = some k ∧ k.active = b ∧ k.rescale = b')
    (hn : (N.rels.map fun r => (r.origin, r.dest)).Nodup)
    (hb : ∀ a c w, (⟨a, c, w⟩ : Rel α) ∈ N.rels → (⟨c, a, w⟩ : Rel α) ∈ N.rels) : Mutual N cs := by
  intro c hc d hd
  obtain ⟨k, hk, k1, k2⟩ := hN c hc
  obtain ⟨l, hl, l1, l2⟩ := hN d hd
  unfold coupling
  rw [hk, hl]
  dsimp only
  rw [k1, k2, l1, l2]
  have key : ∀ a b : String, (∃ r ∈ N.rels, r.origin = a ∧ r.dest = b) →
      (N.rels.filterMap fun r => if r.origin = a ∧ r.dest = b then some r.weight else none) =
        N.rels.filterMap fun r => if r.origin = b ∧ r.dest = a then some r.weight else none := by
    rintro a b ⟨r, hr, rfl, rfl⟩
    have h1 := weights_single hn hr
    have h2 := weights_single hn (hb r.origin r.dest r.weight hr)
    rw [h1]
    exact h2.symm
  have : (N.rels.filterMap fun r => if r.origin = d ∧ r.dest = c then some r.weight else none) =
      N.rels.filterMap fun r => if r.origin = c ∧ r.dest = d then some r.weight else none := by
    by_cases h1 : ∃ r ∈ N.rels, r.origin = d ∧ r.dest = c
    · exact key d c h1
    by_cases h2 : ∃ r ∈ N.rels, r.origin = c ∧ r.dest = d
    · exact (key c d h2).symm
    · rw [List.filterMap_eq_nil_iff.2, List.filterMap_eq_nil_iff.2]
      · intro r hr; rw [if_neg fun e => h2 ⟨r, hr, e⟩]
      · intro r hr; rw [if_neg fun e => h1 ⟨r, hr, e⟩]
  rw [this]

end learned

/-- C128: such a learned map is one of mutual influence, for both engines. -/
theorem C128_mutual [Ordered α] {cfg : GenConf α} {x : Ext α} {ts : List String} {cols : List (String × Column α)}
    {given : Option (FCM α)} {fit : Bool} {g0 g : Gen α} (hd : cfg.double = true) (hc : EvenMeasure cfg.causality)
    (he : EvenMeasure cfg.evaluation) (hs : ∀ f, cfg.sign = some f → EvenMeasure f) (hx : ∀ l, (x.order l).Perm l)
    (hr : Readable cfg x cols) (hg : ∀ m, given = some m → CleanReachable m ∧ m.topology = []) (h0 : Gen.new fit = .ok g0)
    (h : Gen.build cfg x ts cols given g0 = (.ok (), g)) :
    Mutual g.fcm.net g.fcm.topology.keys ∧ Mutual g.fcm.net.vector g.fcm.topology.keys := by
  have ga : ∀ m, given = some m → m.arcList = [] := fun m hm => inv_noarcs (hg m hm).1.clean (hg m hm).2
  obtain ⟨e, hfl⟩ := learned_flags hx hr (fun m hm => (hg m hm).2) h0 h
  have hboth := C128_both hd hc he hs hx hr ga h0 h
  have hnd := (C38_simple_partial hx hr ga h0 h).2
  have hclean : CleanInv g.fcm := by
    obtain ⟨m0, h1, h2⟩ := build_from h0 h
    obtain ⟨W, L, hB⟩ := buildFcm_built hx hr.columns h1
    refine hB.clean ?_
    rcases h2 with h2 | ⟨-, h2⟩
    · exact (hg m0 h2).1.clean
    · exact (CleanReachable.new h2).clean
  have hrels : (g.fcm.net.rels.map fun r => (r.origin, r.dest)).Nodup := by
    show ((g.fcm.arcList.map Arc.toSpec).map fun r => (r.origin, r.dest)).Nodup
    rw [List.map_map]
    exact hnd
  have hback : ∀ a c w, (⟨a, c, w⟩ : Rel α) ∈ g.fcm.net.rels → (⟨c, a, w⟩ : Rel α) ∈ g.fcm.net.rels := by
    intro a c w hm
    obtain ⟨r, hr1, hr2⟩ := List.mem_map.1 hm
    obtain ⟨rd, rw', ro⟩ := r
    unfold Arc.toSpec at hr2
    cases hr2
    exact List.mem_map.2 ⟨⟨ro, rw', rd⟩, (hboth _ _ _).1 hr1, rfl⟩
  have hcon : ∀ c ∈ g.fcm.topology.keys, ∃ k, g.fcm.net.concept c = some k ∧ k.active = true ∧ k.rescale = (e.2 == "PAPAGEORGIUS") := by
    intro c hc
    obtain ⟨n, hn⟩ := Dict.exists_get?_of_mem hc
    obtain ⟨k1, k2⟩ := hfl c n hn
    obtain ⟨k, hk⟩ : ∃ k, n.toSpec = some k := by
      have hf := (hclean.good c n hn).full
      obtain ⟨ex, e1⟩ := Option.isSome_iff_exists.1 hf.exec
      obtain ⟨um, e2⟩ := Option.isSome_iff_exists.1 hf.useMem
      obtain ⟨f, e3⟩ := Option.isSome_iff_exists.1 hf.fn
      unfold Node.toSpec
      rw [e1, e2, e3]
      exact ⟨_, rfl⟩
    refine ⟨k, ?_, ?_⟩
    · show (g.fcm.topology.get? c).bind Node.toSpec = some k
      rw [hn]; exact hk
    · unfold Node.toSpec at hk
      rw [k2] at hk
      split at hk
      · rename_i h1 h2 h3
        cases h1
        cases hk
        exact ⟨k1, rfl⟩
      · cases hk
  refine ⟨mutual_of hcon hrels hback, ?_⟩
  have hl : latest g.fcm.net.rels = g.fcm.net.rels := by
    refine latest_all ?_
    have := List.pairwise_map.1 hrels
    refine this.imp fun {r s} hne e => hne ?_
    rw [e.1, e.2]
  refine mutual_of (b := true) (b' := e.2 == "PAPAGEORGIUS") ?_ (by show ((latest _).map _).Nodup; rw [hl]; exact hrels)
    (by show ∀ a c w, _ ∈ latest _ → _ ∈ latest _; rw [hl]; exact hback)
  intro c hc
  obtain ⟨k, hk, -, k2⟩ := hcon c hc
  refine ⟨k.vector, ?_, rfl, k2⟩
  show (g.fcm.net.concept c).map Concept.vector = _
  rw [hk]
  rfl

section inference
variable {cfg : GenConf ℝ} {x : Ext ℝ} {ts : List String} {cols : List (String × Column ℝ)} {given : Option (FCM ℝ)} {fit : Bool}
  {g0 g : Gen ℝ}

/-- C128: from whatever activations it starts, a learned map of two- and three-valued concepts comes, after at most as many steps as
it has states, to rest or to swinging between two states. -/
theorem C128_swings (hd : cfg.double = true) (hc : EvenMeasure cfg.causality) (he : EvenMeasure cfg.evaluation)
    (hs : ∀ f, cfg.sign = some f → EvenMeasure f) (hx : ∀ l, (x.order l).Perm l) (hr : Readable cfg x cols)
    (hg : ∀ m, given = some m → CleanReachable m ∧ m.topology = []) (h0 : Gen.new fit = .ok g0)
    (h : Gen.build cfg x ts cols given g0 = (.ok (), g)) {k k' : FCM ℝ} (hk : Reachable k) (hnet : k.net = g.fcm.net)
    (hkeys : k.topology.keys = g.fcm.topology.keys) (hdb : k.debug = true) (hst : Stepwise k)
    (hrun : FCM.runInference true k = (.ok (), k')) {c : String} (hcn : c ∈ k.topology.keys) {t : Nat} (ht : stateCount k ≤ t)
    (hl : t + 2 < k'.iterations) : at' k'.traj (t + 2) c = at' k'.traj t c :=
  C125_two hk hdb hst (by rw [hnet, hkeys]; exact (C128_mutual hd hc he hs hx hr hg h0 h).1) hrun hcn ht hl

/-- C128: a learned map of smooth concepts comes as close as one likes to that, within a number of steps known beforehand: the sum of
the squared changes from each step to the next but one is bounded. -/
theorem C128_settles (hd : cfg.double = true) (hc : EvenMeasure cfg.causality) (he : EvenMeasure cfg.evaluation)
    (hs : ∀ f, cfg.sign = some f → EvenMeasure f) (hx : ∀ l, (x.order l).Perm l) (hr : Readable cfg x cols)
    (hg : ∀ m, given = some m → CleanReachable m ∧ m.topology = []) (h0 : Gen.new fit = .ok g0)
    (h : Gen.build cfg x ts cols given g0 = (.ok (), g)) {k k' : FCM ℝ} (hk : Reachable k) (hnet : k.net = g.fcm.net)
    (hkeys : k.topology.keys = g.fcm.topology.keys) (hdb : k.debug = true) {l : ℝ} (hl : 0 < l) (hsp : Supple k l)
    (hin : ∀ c ∈ k.topology.keys, -1 ≤ at' k.traj 0 c ∧ at' k.traj 0 c ≤ 1)
    (hrun : FCM.runInference true k = (.ok (), k')) {n : Nat} (hn : n + 2 < k'.iterations) :
    ∑ t ∈ Finset.range n, shifted k'.traj k.topology.keys (t + 1) (t + 3) ≤ 24 * l * totalPull k.net k.topology.keys :=
  C126_two hk hdb hl hsp (by rw [hnet, hkeys]; exact (C128_mutual hd hc he hs hx hr hg h0 h).1) hin hrun hn

end inference

/-! ### From the table to the run -/

theorem cleanReachable_build {α : Type} [Arith α] {cfg : GenConf α} {x : Ext α} {ts : List String} {cols : List (String × Column α)}
    {g g' : Gen α} (hm : CleanReachable g.fcm) (h : buildFcm cfg x ts cols g = (.ok (), g')) : CleanReachable g'.fcm := by
  have hR : GenRel (fun m m' : FCM α => m = m' ∧ CleanReachable m) := by
    constructor
    · rintro c a m _ ⟨rfl, h⟩
      exact ⟨rfl, fun b hb => ⟨rfl, .step (.addConcept c a) h (Prod.ext hb rfl)⟩⟩
    · rintro o d w m _ ⟨rfl, h⟩
      exact ⟨rfl, fun b hb => ⟨rfl, .step (.addRelation o d w) h (Prod.ext hb rfl)⟩⟩
  have := (buildFcm_rel hR cfg x ts cols g g ⟨rfl, rfl, rfl, hm⟩).2 () (by rw [h])
  rw [h] at this
  exact this.2.2.2

/-- The settings of `m0`, and no activations but 0. -/
def Unstarted (m0 m : FCM ℝ) : Prop := m.debug = m0.debug ∧ m.decisionName = m0.decisionName ∧ ∀ c, at' m.traj 0 c = 0

theorem unstarted_gen (m0 : FCM ℝ) : GenPres (Unstarted m0) := by
  constructor
  · intro c a m h
    unfold FCM.addConcept
    dsimp only
    split
    · exact h
    · refine ⟨h.1, h.2.1, fun d => ?_⟩
      by_cases e : d = c
      · subst e
        show ((Dict.get? (Dict.set _ _ _) d).getD []).getD 0 (lit 0) = 0
        rw [Dict.get?_set_self]
        simp
      · show ((Dict.get? (Dict.set _ _ _) d).getD []).getD 0 (lit 0) = 0
        rw [Dict.get?_set_ne _ _ (Ne.symm e)]
        exact h.2.2 d
  · intro o d w m h
    have e1 : (FCM.addRelation o d w m).2.debug = m.debug ∧ (FCM.addRelation o d w m).2.decisionName = m.decisionName := by
      unfold FCM.addRelation
      dsimp only
      repeat' split
      all_goals exact ⟨rfl, rfl⟩
    refine ⟨e1.1.trans h.1, e1.2.trans h.2.1, fun c => ?_⟩
    have := addRelation_execution o d w m
    unfold FCM.traj
    rw [this]
    exact h.2.2 c

/-- The learned concepts of categorical columns have the function of the map. -/
theorem learned_fn {cfg : GenConf ℝ} {x : Ext ℝ} {ts : List String} {cols : List (String × Column ℝ)} {m0 : FCM ℝ} {g : Gen ℝ}
    (hx : ∀ l, (x.order l).Perm l) (hr : Readable cfg x cols) (hdisc : ∀ p ∈ cols, p.2.isDiscrete cfg = true)
    (t0 : m0.topology = []) (hfit : m0.fitInclination = none) (h : buildFcm cfg x ts cols ⟨[], [], m0⟩ = (.ok (), g)) :
    ∀ c n, g.fcm.topology.get? c = some n → n.fn = some m0.default.fn := by
  obtain ⟨W, L, hB⟩ := buildFcm_built hx hr.columns h
  have hnd := hB.names_nodup hr
  intro c n hn
  have hk := (hB.keys c).1 (Dict.mem_keys_of_get? hn)
  rw [t0] at hk
  obtain ⟨w, hw, hcw⟩ := hk.resolve_left (by simp [Dict.keys])
  obtain ⟨p, hp, -, hF⟩ := hB.of_work hw
  have hargs := hF.args
  rw [Work.names, ← hargs] at hcw
  obtain ⟨q, hq, rfl⟩ := List.mem_map.1 hcw
  obtain ⟨n0, n', hb, hn', hkin⟩ := hB.born hnd w hw q hq
  rw [hn] at hn'
  obtain rfl := Option.some.inj hn'
  unfold FeatureOf at hF
  rw [if_pos (hdisc p hp)] at hF
  rw [hF.2.2.2] at hq
  obtain ⟨_, _, rfl⟩ := List.mem_map.1 hq
  have hty : isValidType w.2.1.type = true ∧ isFuzzyType w.2.1.type = false := by
    rw [hF.1]
    split <;> decide
  have h1 := (born_disc hb hty.1 hty.2).2
  rw [hkin.2.2.2.2.1 hfit]
  exact h1

/-- `init_concept` of several concepts, one after the other. -/
def Spec.presets {α : Type} [Arith α] (vs : List (String × α)) : PyM (FCM α) Unit := PyM.forEach vs fun p => FCM.initConcept p.1 p.2 true

/-- Ready to run: what is needed to know of a map that has been learned and initialised. -/
structure Primed (N : Net ℝ) (cs : List String) (f : FnInfo ℝ) (m : FCM ℝ) : Prop where
  clean : CleanReachable m
  net : m.net = N
  keys : m.topology.keys = cs
  debug : m.debug = true
  dec : m.decisionName = "MEAN"
  fn : ∀ c n, m.topology.get? c = some n → n.fn = some f
  start : ∀ c, -1 ≤ at' m.traj 0 c ∧ at' m.traj 0 c ≤ 1

theorem initConcept_own {m k : FCM ℝ} {b : String} {v : ℝ} {f : FnInfo ℝ} (hf : f.name ≠ "fuzzy")
    (hfn : ∀ c n, m.topology.get? c = some n → n.fn = some f) (h : FCM.initConcept b v true m = (.ok (), k)) :
    (∀ c n, k.topology.get? c = some n → n.fn = some f) ∧ k.traj b = [v] := by
  unfold FCM.initConcept at h
  split at h
  · cases h
  · rename_i n hn
    rw [hfn b n hn] at h
    dsimp only at h
    rw [if_neg hf] at h
    cases h
    refine ⟨fun c n' hn' => ?_, ?_⟩
    · by_cases e : c = b
      · subst e
        rw [Dict.get?_set_self] at hn'
        cases hn'
        exact rfl
      · rw [Dict.get?_set_ne _ _ (Ne.symm e)] at hn'
        exact hfn c n' hn'
    · show (Dict.get? (Dict.set _ _ _) b).getD [] = _
      rw [Dict.get?_set_self]
      rfl

theorem Primed.presets {N : Net ℝ} {cs : List String} {f : FnInfo ℝ} (hf : f.name ≠ "fuzzy") {vs : List (String × ℝ)}
    (hv : ∀ p ∈ vs, -1 ≤ p.2 ∧ p.2 ≤ 1) {m k : FCM ℝ} (hm : Primed N cs f m) (h : Spec.presets vs m = (.ok (), k)) :
    Primed N cs f k := by
  refine PyM.forEach_ok (Primed N cs f) ?_ hm h
  intro p hp s s' hs hstep
  obtain ⟨e1, e2, e3, e4, -, -, -, e5⟩ := initConcept_effect hstep
  obtain ⟨e6, e7⟩ := initConcept_own hf hs.fn hstep
  refine ⟨.step (.initConcept p.1 p.2 true) hs.clean hstep, e1.trans hs.net, e2.trans hs.keys, e4.trans hs.debug, e5.trans hs.dec,
    e6, fun c => ?_⟩
  by_cases e : c = p.1
  · subst e
    unfold at'
    rw [e7]
    simpa using hv p hp
  · unfold at'
    rw [e3 c e]
    exact hs.start c

/-- C128, from the table to the run: a table of categorical columns is learned, with such measures, into a new map with the default
settings; whatever concepts are then initialised, with activations from -1 to 1, inference returns, and the sum of the squared
changes from each step to the next but one is at most 24 times the weights of the map and its memories, however long it runs. -/
theorem C128_table {cfg : GenConf ℝ} {x : Ext ℝ} {ts : List String} {cols : List (String × Column ℝ)} {fit : Bool} {g0 g : Gen ℝ}
    (hd : cfg.double = true) (hc : EvenMeasure cfg.causality) (he : EvenMeasure cfg.evaluation)
    (hs : ∀ f, cfg.sign = some f → EvenMeasure f) (hx : ∀ l, (x.order l).Perm l) (hr : Readable cfg x cols)
    (hdisc : ∀ p ∈ cols, p.2.isDiscrete cfg = true) (h0 : Gen.new fit = .ok g0) (h : Gen.build cfg x ts cols none g0 = (.ok (), g))
    {vs : List (String × ℝ)} (hv : ∀ p ∈ vs, -1 ≤ p.2 ∧ p.2 ≤ 1) {k : FCM ℝ} (hi : presets vs g.fcm = (.ok (), k)) :
    ∃ k', FCM.runInference true k = (.ok (), k') ∧ ∀ n, n + 2 < k'.iterations →
      ∑ t ∈ Finset.range n, shifted k'.traj g.fcm.topology.keys (t + 1) (t + 3) ≤ 24 * totalPull g.fcm.net g.fcm.topology.keys := by
  obtain ⟨m0, h1, h2⟩ := build_from h0 h
  have h2 : FCM.new = .ok m0 := by
    rcases h2 with h2 | ⟨-, h2⟩
    · cases h2
    · exact h2
  have c0 : CleanReachable m0 := .new h2
  have hm0 : m0.debug = true ∧ m0.decisionName = "MEAN" ∧ m0.default.fn = ⟨.sigmoidHip, "sigmoid_hip", []⟩ ∧ m0.fitInclination = none := by
    have h3 := h2
    unfold FCM.new at h3
    cases h3
    exact ⟨rfl, rfl, rfl, rfl⟩
  obtain ⟨t0, -, x0⟩ := new_empty h2
  have hu : Unstarted m0 g.fcm := by
    have := buildFcm_pres (unstarted_gen m0) cfg x ts cols ⟨[], [], m0⟩ ⟨rfl, rfl, fun c => by
      unfold at' FCM.traj
      rw [x0]
      simp [Dict.get?]⟩
    rw [h1] at this
    exact this
  have hfn := learned_fn hx hr hdisc t0 hm0.2.2.2 h1
  rw [hm0.2.2.1] at hfn
  have hp : Primed g.fcm.net g.fcm.topology.keys ⟨.sigmoidHip, "sigmoid_hip", []⟩ g.fcm :=
    ⟨cleanReachable_build (g := ⟨[], [], m0⟩) c0 h1, rfl, rfl, hu.1.trans hm0.1, hu.2.1.trans hm0.2.1, hfn, fun c => by
      rw [hu.2.2 c]; norm_num⟩
  have hk := hp.presets (by decide) hv hi
  obtain ⟨k', hrun⟩ := C75_succeeds hk.clean hk.debug (fun c n f hn hf => by
    rw [hk.fn c n hn] at hf
    cases hf
    exact ⟨.inl rfl, fun h => absurd h (by decide)⟩) (by rw [hk.dec]; decide)
  refine ⟨k', hrun, fun n hn => ?_⟩
  have := C128_settles hd hc he hs hx hr (fun _ h => by cases h) h0 h hk.clean.reachable hk.net hk.keys hk.debug one_pos
    (fun c n hn => ⟨_, 1, hk.fn c n hn, .inl rfl, .inl ⟨rfl, rfl⟩, le_refl _⟩) (fun c _ => hk.start c) hrun hn
  rw [hk.keys, hk.net, mul_one] at this
  exact this

/-! ### Concrete cases -/

namespace Ex

theorem supp_even : EvenMeasure (Relation.supp (α := ℚ)) := by
  intro a b c d
  unfold Relation.supp
  rw [show a + b + c + d = a + c + b + d by ring]

/-- Support as the measure of causality. -/
def suppConf (double : Bool) : GenConf ℚ :=
  { exclusion := -1, causality := Relation.supp, evaluation := Relation.supp, threshold := 0, signCut := 0, double := double }
def suppGen (double : Bool) : Gen ℚ := (Gen.build (suppConf double) ext ["class"] colsA none gen0).2
theorem suppGen_fit (double : Bool) : Gen.build (suppConf double) ext ["class"] colsA none gen0 = (.ok (), suppGen double) := by
  cases double
  · exact pair_of _ (by decide +kernel)
  · exact pair_of _ (by decide +kernel)
theorem supp_readable (double : Bool) : Readable (suppConf double) ext colsA := by
  have h := A_readable
  exact ⟨h.1, h.2, h.3, h.4, h.5, h.6⟩

/-- The hypotheses are met by a table with two features and a target; there are relations to speak of. -/
example (a b : String) (w : ℚ) : (⟨b, w, a⟩ : Arc ℚ) ∈ (suppGen true).fcm.arcList ↔ (⟨a, w, b⟩ : Arc ℚ) ∈ (suppGen true).fcm.arcList :=
  C128_both (cfg := suppConf true) rfl supp_even supp_even (fun _ h => by cases h) (fun _ => .refl _)
  (supp_readable true) (given := none) (fun _ h => by cases h) gen0_new (suppGen_fit true) a b w
example : Mutual (suppGen true).fcm.net (suppGen true).fcm.topology.keys :=
  (C128_mutual (cfg := suppConf true) rfl supp_even supp_even (fun _ h => by cases h) (fun _ => .refl _)
  (supp_readable true) (given := none) (fun _ h => by cases h) gen0_new (suppGen_fit true)).1
example {r : Arc ℚ} (hm : r ∈ (suppGen false).fcm.arcList) {p q : String × Column ℚ} (hp : p ∈ colsA) (hq : q ∈ colsA)
    (hpo : ConceptOf (suppConf false) ext p r.origin) (hqo : ConceptOf (suppConf false) ext q r.dest) (hpq : p.1 ≠ q.1) :
    p.1 ∉ ["class"] ∧ q.1 ∈ ["class"] :=
  C128_one (cfg := suppConf false) rfl supp_even (fun _ => .refl _)
  (supp_readable false) (given := none) (fun _ h => by cases h) gen0_new (suppGen_fit false) hm hp hq hpo hqo hpq

/-- Support relates "red" and "1" in both directions with the same weight, and not at all if only one direction is wanted;
confidence, which tells the directions apart, gives two different weights. -/
theorem C128_compare :
    ((suppGen true).fcm.arcList.filter fun r => r.origin = "red___color" ∧ r.dest = "1___size").map Arc.weight = [1/3] ∧
    ((suppGen true).fcm.arcList.filter fun r => r.origin = "1___size" ∧ r.dest = "red___color").map Arc.weight = [1/3] ∧
    ((suppGen false).fcm.arcList.filter fun r => r.origin = "red___color" ∧ r.dest = "1___size") = [] ∧
    ((suppGen false).fcm.arcList.filter fun r => r.origin = "1___size" ∧ r.dest = "red___color") = [] ∧
    ((suppGen false).fcm.arcList.filter fun r => r.origin = "red___color" ∧ r.dest = "yes___class").map Arc.weight = [2/3] ∧
    (genA.fcm.arcList.filter fun r => r.origin = "red___color" ∧ r.dest = "1___size").map Arc.weight = [1/2] ∧
    (genA.fcm.arcList.filter fun r => r.origin = "1___size" ∧ r.dest = "red___color").map Arc.weight = [1] := by
  decide +kernel

/-- The same over the reals: two categorical columns, support as the measure. -/
noncomputable def suppReal : GenConf ℝ :=
  { exclusion := -1, causality := Relation.supp, evaluation := Relation.supp, threshold := 0, signCut := 0 }

theorem suppReal_readable : Readable suppReal realExt table := by
  have h := table_readable
  exact ⟨h.1, h.2, h.3, h.4, h.5, h.6⟩

theorem table_discrete : ∀ p ∈ table, p.2.isDiscrete suppReal = true := by
  intro p hp
  simp only [table, List.mem_cons, List.not_mem_nil, or_false] at hp
  rcases hp with rfl | rfl <;> rfl

theorem suppReal_builds {g0 : Gen ℝ} (h0 : Gen.new true = .ok g0) :
    ∃ g, Gen.build suppReal realExt ["class"] table none g0 = (.ok (), g) := by
  have hl : ∀ p ∈ table, ∀ q ∈ table, (Spec.cells p.2).length = (Spec.cells q.2).length := by
    intro p hp q hq
    simp only [table, List.mem_cons, List.not_mem_nil, or_false] at hp hq
    rcases hp with rfl | rfl <;> rcases hq with rfl | rfl <;> rfl
  obtain ⟨m, hm, hf, ha⟩ : ∃ m, (FCM.new : Except Err (FCM ℝ)) = .ok m ∧ m.fitInclination = none ∧ m.default.fn.args = [] :=
    ⟨_, rfl, rfl, rfl⟩
  obtain ⟨g, hg⟩ := C60_builds (m0 := m) (ts := ["class"]) (cfg := suppReal) (cols := table) (x := realExt) (fun l => .refl _) hf
    table_discrete hl (fun p hp q hq _ u hu v _ => by
      have := (measured_default (cfg := realConf) rfl rfl rfl (hl p hp q hq) hu (v := v)).evaluation
      exact ⟨this, this, fun _ h => by cases h⟩) (v := []) (by rw [ha]; rfl)
  refine ⟨g, ?_⟩
  have hg0 : g0.features = [] ∧ g0.processed = [] := by
    unfold Gen.new at h0
    obtain ⟨p, -, h1⟩ := exc_bind_ok h0
    cases h1
    exact ⟨rfl, rfl⟩
  unfold Gen.build
  rw [hm]
  dsimp only
  rw [hg0.1, hg0.2]
  exact hg

/-- The table is learned, "red" is set to 1, inference returns and obeys the bound. -/
example {g0 : Gen ℝ} (h0 : Gen.new true = .ok g0) : ∃ g k k', Gen.build suppReal realExt ["class"] table none g0 = (.ok (), g) ∧
    FCM.initConcept "red___color" 1 true g.fcm = (.ok (), k) ∧ FCM.runInference true k = (.ok (), k') ∧
    ∀ n, n + 2 < k'.iterations → ∑ t ∈ Finset.range n, shifted k'.traj g.fcm.topology.keys (t + 1) (t + 3) ≤
      24 * totalPull g.fcm.net g.fcm.topology.keys := by
  obtain ⟨g, h⟩ := suppReal_builds h0
  obtain ⟨n, hn, hf⟩ := C40_unfitted (fun l => .refl _) suppReal_readable h0 h (p := ("color", .strs ["red", "blue", "red"]))
    (by simp [table]) rfl (c := "red___color") ⟨.str "red", by simp [Spec.cells], rfl⟩
  obtain ⟨k, hk⟩ : ∃ k, FCM.initConcept "red___color" 1 true g.fcm = (.ok (), k) := by
    unfold FCM.initConcept
    rw [hn]
    dsimp only
    rw [hf]
    dsimp only
    rw [if_neg (by decide)]
    exact ⟨_, rfl⟩
  obtain ⟨k', h1, h2⟩ := C128_table rfl C128_supp C128_supp (fun _ h => by cases h) (fun l => .refl _) suppReal_readable
    table_discrete h0 h (vs := [("red___color", 1)]) (by simp) (k := k) (by
      unfold presets
      simp only [PyM.forEach, hk])
  exact ⟨g, k, k', h, hk, h1, h2⟩

end Ex

end PyFCM
