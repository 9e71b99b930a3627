import Verif.Props.Reorder
/-
C129: what is learned about two columns depends on these two columns only, and not on their names.
-/
namespace PyFCM
open Arith Spec

set_option linter.unusedSectionVars false

variable {α : Type} [Arith α]

/-- The columns `p` of one table and `p'` of another have the same cells and the same role, and are clustered alike if they are
numeric. -/
structure Spec.SameColumn (cfg : GenConf α) (x x' : Ext α) (ts ts' : List String) (p p' : String × Column α) : Prop where
  cells : p'.2 = p.2
  role : p'.1 ∈ ts' ↔ p.1 ∈ ts
  clusters : p.2.isDiscrete cfg = false → x'.disc p'.1 p.2.asFloats = x.disc p.1 p.2.asFloats

theorem Spec.SameColumn.symm {cfg : GenConf α} {x x' : Ext α} {ts ts' : List String} {p p' : String × Column α}
    (h : SameColumn cfg x x' ts ts' p p') : SameColumn cfg x' x ts' ts p' p :=
  ⟨h.cells.symm, h.role.symm, fun hd => by rw [h.cells] at hd ⊢; exact (h.clusters hd).symm⟩

theorem Spec.SameColumn.refl {cfg : GenConf α} {x x' : Ext α} {ts ts' : List String} {p : String × Column α}
    (hd : x'.disc = x.disc) (ht : p.1 ∈ ts' ↔ p.1 ∈ ts) : SameColumn cfg x x' ts ts' p p :=
  ⟨rfl, ht, fun _ => by rw [hd]⟩

theorem text_fmt {x x' : Ext α} (h : x'.fmt = x.fmt) (c : Cell α) : c.text x' = c.text x := by
  cases c with
  | float v => exact congrFun h v
  | bool b => cases b <;> rfl
  | str s => rfl
  | int i => rfl

theorem name_inj {cfg : GenConf α} {f u v : String} (h : u ++ cfg.separator ++ f = v ++ cfg.separator ++ f) : u = v := by
  have h := congrArg String.toList h
  simp only [String.toList_append, List.append_assoc] at h
  exact String.toList_inj.1 (List.append_cancel_right h)

/-- Two features with the same labels and descriptions. -/
structure Kindred (cfg : GenConf α) (f f' : String) (F F' : Feature α) (cs cs' : List (String × ConceptArgs α)) : Prop where
  type : F'.type = F.type
  desc : F'.desc = F.desc
  labels : ∃ ls : List String, F.names = ls.map (fun l => l ++ cfg.separator ++ f) ∧ F'.names = ls.map (fun l => l ++ cfg.separator ++ f')
  args : ∀ v a, (v ++ cfg.separator ++ f, a) ∈ cs → (v ++ cfg.separator ++ f', a) ∈ cs'

theorem FeatureOf.kindred {cfg : GenConf α} {x x' : Ext α} {ts ts' : List String} {p p' : String × Column α} {F F' : Feature α}
    {cs cs' : List (String × ConceptArgs α)} (hx : x'.fmt = x.fmt) (hs : SameColumn cfg x x' ts ts' p p')
    (h : FeatureOf cfg x ts p.1 p.2 F cs) (h' : FeatureOf cfg x' ts' p'.1 p'.2 F' cs') : Kindred cfg p.1 p'.1 F F' cs cs' := by
  rw [hs.cells] at h'
  unfold FeatureOf at h h'
  split at h
  · rename_i hd
    rw [if_pos hd] at h'
    obtain ⟨a1, a2, a3, a4⟩ := h
    obtain ⟨b1, b2, b3, b4⟩ := h'
    have e1 : F'.type = F.type := by rw [a1, b1]; simp only [hs.role]
    refine ⟨e1, by rw [a3, b3], ⟨p.2.uniqCells.map fun c => c.text x, ?_, ?_⟩, ?_⟩
    · rw [a2, List.map_map]; rfl
    · rw [b2, List.map_map]
      exact List.map_congr_left fun c _ => by rw [text_fmt hx]; rfl
    · intro v a hm
      rw [a4, a2, List.map_map, List.mem_map] at hm
      obtain ⟨c, hc, e⟩ := hm
      obtain ⟨e2, e3⟩ := Prod.mk.inj e
      have e2 := name_inj e2
      rw [b4, b2, List.map_map, List.mem_map]
      refine ⟨c, hc, Prod.ext ?_ ?_⟩
      · show nameConcept cfg p'.1 (c.text x') = _
        rw [text_fmt hx, ← e2]; rfl
      · show discArgs F'.type = a
        rw [e1]; exact e3
  · rename_i hd
    rw [if_neg hd] at h'
    obtain ⟨n, vl, memb, a0, -, a1, a2, a3, a4⟩ := h
    obtain ⟨n', vl', memb', b0, -, b1, b2, b3, b4⟩ := h'
    rw [hs.clusters (by simpa using hd), a0] at b0
    cases b0
    have e1 : F'.type = F.type := by rw [a1, b1]; simp only [hs.role]
    have e3 : F'.desc = F.desc := forall₂_func (fun _ b c h h' => by rw [h] at h'; exact Except.ok.inj h') b3 a3
    refine ⟨e1, e3, ⟨(List.range n).map toString, ?_, ?_⟩, ?_⟩
    · rw [a2, List.map_map]; rfl
    · rw [b2, List.map_map]; rfl
    · intro v a hm
      rw [a4, a2, List.mem_map] at hm
      obtain ⟨⟨c, mb⟩, hc, e⟩ := hm
      obtain ⟨e2, e4⟩ := Prod.mk.inj e
      dsimp only at e2 e4
      rw [List.zip_map_left, List.mem_map] at hc
      obtain ⟨⟨i, mb'⟩, hi, e5⟩ := hc
      obtain ⟨e7, e6⟩ := Prod.mk.inj e5
      have e6 : mb' = mb := e6
      subst e6
      have e7 : nameConcept cfg p.1 (toString i) = c := e7
      rw [← e7] at e2
      have e2 := name_inj e2
      rw [b4, b2, List.mem_map]
      refine ⟨(nameConcept cfg p'.1 (toString i), mb'), ?_, Prod.ext ?_ ?_⟩
      · rw [List.zip_map_left, List.mem_map]
        exact ⟨(i, mb'), hi, rfl⟩
      · show nameConcept cfg p'.1 (toString i) = _
        rw [← e2]; rfl
      · show contArgs F'.type mb' vl = a
        rw [e1]; exact e4

theorem Kindred.rows {cfg : GenConf α} {f f' : String} {F F' : Feature α} {cs cs' : List (String × ConceptArgs α)}
    (h : Kindred cfg f f' F F' cs cs') {v : String} {d : List α} (hm : (v ++ cfg.separator ++ f, d) ∈ F.rows) :
    (v ++ cfg.separator ++ f', d) ∈ F'.rows := by
  obtain ⟨ls, e1, e2⟩ := h.labels
  unfold Feature.rows at hm ⊢
  rw [e1, List.zip_map_left, List.mem_map] at hm
  rw [e2, h.desc, List.zip_map_left, List.mem_map]
  obtain ⟨⟨l, d'⟩, hl, e⟩ := hm
  obtain ⟨e3, e4⟩ := Prod.mk.inj e
  have e3 := name_inj e3
  have e4 : d' = d := e4
  exact ⟨(l, d'), hl, by rw [← e3, ← e4]; rfl⟩

theorem Kindred.names {cfg : GenConf α} {f f' : String} {F F' : Feature α} {cs cs' : List (String × ConceptArgs α)}
    (h : Kindred cfg f f' F F' cs cs') {v : String} (hm : v ++ cfg.separator ++ f ∈ F.names) :
    v ++ cfg.separator ++ f' ∈ F'.names := by
  obtain ⟨ls, e1, e2⟩ := h.labels
  rw [e1, List.mem_map] at hm
  obtain ⟨l, hl, e⟩ := hm
  rw [e2, List.mem_map]
  exact ⟨l, hl, by rw [name_inj e]⟩

theorem Goes.kindred {cfg : GenConf α} {F F' G G' : Feature α} (hF : F'.type = F.type) (hG : G'.type = G.type) {pq qp : Coef α}
    (h : Goes cfg F G pq qp) : Goes cfg F' G' pq qp := by
  have e1 : isTarget F' = isTarget F := by unfold isTarget; rw [hF]
  have e2 : sameGroup F' G' = sameGroup F G := by unfold sameGroup isTarget; rw [hF, hG]
  unfold Goes at h ⊢
  rw [e1, e2]
  exact h

theorem CrossArc.kindred {cfg : GenConf α} {f f' k k' : String} {F F' G G' : Feature α} {cs cs' ds ds' : List (String × ConceptArgs α)}
    (hF : Kindred cfg f f' F F' cs cs') (hG : Kindred cfg k k' G G' ds ds') (hdj : ∀ c, c ∈ F.names → c ∉ G.names) {u v : String} {w : α}
    (ho : v ++ cfg.separator ++ f ∈ F.names)
    (h : CrossArc cfg F G ⟨u ++ cfg.separator ++ k, w, v ++ cfg.separator ++ f⟩) :
    CrossArc cfg F' G' ⟨u ++ cfg.separator ++ k', w, v ++ cfg.separator ++ f'⟩ := by
  obtain ⟨h1, pa, ha, pb, hb, pq, qp, hc, h2⟩ := h
  have e2 : sameGroup F' G' = sameGroup F G := by unfold sameGroup isTarget; rw [hF.type, hG.type]
  rcases h2 with ⟨s, w', e, h3, h4, h5⟩ | ⟨s, w', e, h3, h4, h5⟩
  · rw [Arc.mk.injEq] at e
    obtain ⟨e3, rfl, e4⟩ := e
    obtain ⟨pa1, pa2⟩ := pa
    obtain ⟨pb1, pb2⟩ := pb
    dsimp only at e3 e4 hc
    subst e3 e4
    exact ⟨by rw [e2]; exact h1, _, hF.rows ha, _, hG.rows hb, pq, qp, hc, .inl ⟨s, w, rfl, h3, h4.kindred hF.type hG.type, h5⟩⟩
  · exfalso
    rw [Arc.mk.injEq] at e
    refine hdj _ ho ?_
    rw [e.2.2]
    exact mem_names_of_rows hb

section
variable {cfg : GenConf α} {x x' : Ext α} {ts ts' : List String} {cols cols' : List (String × Column α)} {m0 m0' : FCM α}
  {W W' : List (Work α)} {L L' : List (Arc α)} {g g' : Gen α}

theorem Built.same [Ordered α] (hr : Readable cfg x cols) (hB : Built cfg x ts cols m0 W L g) {u v : Work α} (hu : u ∈ W) (hv : v ∈ W)
    {c : String} (h1 : c ∈ u.names) (h2 : c ∈ v.names) : u = v := by
  have hWk : (W.map (·.1)).Nodup := by rw [hB.wnames]; exact hr.columns
  refine List.inj_on_of_nodup_map hWk hu hv ?_
  by_contra hne
  exact disjoint_names (hB.names_nodup hr) hu hv hne c h1 h2

/-- The relations between the concepts of two columns. -/
theorem Built.between [Ordered α] (hmul : ∀ a b : α, a * b = b * a) (hr : Readable cfg x cols) (hB : Built cfg x ts cols m0 W L g)
    {u v : Work α} (hu : u ∈ W) (hv : v ∈ W) (hne : u.1 ≠ v.1) {r : Arc α} (ho : r.origin ∈ u.names) (hd : r.dest ∈ v.names) :
    r ∈ L ↔ CrossArc cfg u.2.1 v.2.1 r := by
  have hnd := hB.names_nodup hr
  have hWn := (List.nodup_flatMap.1 hnd).1
  rw [hB.mem]
  constructor
  · rintro (⟨w, hw, hm⟩ | ⟨a, b, hsub, hm⟩)
    · unfold exclArcs at hm
      split at hm
      · cases hm
      · obtain ⟨-, k2, k3, -⟩ := (mem_innerArcs (hWn w hw)).1 hm
        rw [hB.same hr hu hw ho k2, hB.same hr hv hw hd k3] at hne
        exact absurd rfl hne
    · have ha : a ∈ W := hsub.subset (by simp)
      have hb : b ∈ W := hsub.subset (by simp)
      rcases crossArc_ends hm with ⟨k1, k2⟩ | ⟨k1, k2⟩
      · rw [hB.same hr hu hb ho k1, hB.same hr hv ha hd k2]
        exact hm
      · rw [hB.same hr hu ha ho k1, hB.same hr hv hb hd k2]
        exact Goes.swap hmul hm
  · intro hm
    rcases pair_sublist hu hv (fun e => hne (by rw [e])) with hs | hs
    · exact .inr ⟨u, v, hs, Goes.swap hmul hm⟩
    · exact .inr ⟨v, u, hs, hm⟩

/-- The relations inside a column. -/
theorem Built.inside [Ordered α] (hr : Readable cfg x cols) (hB : Built cfg x ts cols m0 W L g)
    {u : Work α} (hu : u ∈ W) {r : Arc α} (ho : r.origin ∈ u.names) (hd : r.dest ∈ u.names) :
    r ∈ L ↔ (cfg.exclusion =? lit 0) = false ∧ r.weight = cfg.exclusion ∧ r.origin ≠ r.dest := by
  have hnd := hB.names_nodup hr
  have hWn := (List.nodup_flatMap.1 hnd).1
  have hWk : (W.map (·.1)).Nodup := by rw [hB.wnames]; exact hr.columns
  have key : ∀ w ∈ W, r ∈ exclArcs cfg w.2.1 ↔ (cfg.exclusion =? lit 0) = false ∧ r.weight = cfg.exclusion ∧ r.origin ∈ w.names ∧
      r.dest ∈ w.names ∧ r.origin ≠ r.dest := by
    intro w hw
    unfold exclArcs
    split
    · rename_i hz
      simp [hz]
    · rename_i hz
      rw [mem_innerArcs (ns := w.2.1.names) (hWn w hw)]
      simp only [Bool.not_eq_true] at hz
      simp [hz, Work.names]
  rw [hB.mem]
  constructor
  · rintro (⟨w, hw, hm⟩ | ⟨a, b, hsub, hm⟩)
    · obtain ⟨k1, k2, -, -, k5⟩ := (key w hw).1 hm
      exact ⟨k1, k2, k5⟩
    · exfalso
      have ha : a ∈ W := hsub.subset (by simp)
      have hb : b ∈ W := hsub.subset (by simp)
      have hab : a ≠ b := by
        have := hWk.of_map.sublist hsub
        simp at this
        exact this
      rcases crossArc_ends hm with ⟨k1, k2⟩ | ⟨k1, k2⟩
      · exact hab ((hB.same hr hu ha hd k2).symm.trans (hB.same hr hu hb ho k1))
      · exact hab ((hB.same hr hu ha ho k1).symm.trans (hB.same hr hu hb hd k2))
  · rintro ⟨k1, k2, k3⟩
    exact .inl ⟨u, hu, (key u hu).2 ⟨k1, k2, ho, hd, k3⟩⟩

theorem Built.local [Ordered α] (hmul : ∀ a b : α, a * b = b * a) (hx : x'.fmt = x.fmt) (hr : Readable cfg x cols)
    (hr' : Readable cfg x' cols') (hB : Built cfg x ts cols m0 W L g) (hB' : Built cfg x' ts' cols' m0' W' L' g')
    {p q p' q' : String × Column α} (hp : p ∈ cols) (hq : q ∈ cols) (hp' : p' ∈ cols') (hq' : q' ∈ cols')
    (sp : SameColumn cfg x x' ts ts' p p') (sq : SameColumn cfg x x' ts ts' q q') (hpq : p.1 = q.1 ↔ p'.1 = q'.1) {u v : String} {w : α}
    (hv : ConceptOf cfg x p (v ++ cfg.separator ++ p.1)) (hu : ConceptOf cfg x q (u ++ cfg.separator ++ q.1))
    (hm : (⟨u ++ cfg.separator ++ q.1, w, v ++ cfg.separator ++ p.1⟩ : Arc α) ∈ L) :
    (⟨u ++ cfg.separator ++ q'.1, w, v ++ cfg.separator ++ p'.1⟩ : Arc α) ∈ L' := by
  obtain ⟨wp, hwp, ep, hFp⟩ := hB.of_col hp
  obtain ⟨wq, hwq, eq1, hFq⟩ := hB.of_col hq
  obtain ⟨wp', hwp', ep', hFp'⟩ := hB'.of_col hp'
  obtain ⟨wq', hwq', eq1', hFq'⟩ := hB'.of_col hq'
  have ap := FeatureOf.kindred hx sp hFp hFp'
  have aq := FeatureOf.kindred hx sq hFq hFq'
  have hvn := (mem_names hFp _).2 hv
  have hun := (mem_names hFq _).2 hu
  have hvn' := ap.names hvn
  have hun' := aq.names hun
  by_cases he : p.1 = q.1
  · have hWk : (W.map (·.1)).Nodup := by rw [hB.wnames]; exact hr.columns
    have hWk' : (W'.map (·.1)).Nodup := by rw [hB'.wnames]; exact hr'.columns
    have e1 : wq = wp := List.inj_on_of_nodup_map hWk hwq hwp (by rw [ep, eq1, he])
    have e2 : wq' = wp' := List.inj_on_of_nodup_map hWk' hwq' hwp' (by rw [ep', eq1', hpq.1 he])
    obtain ⟨k1, k2, k3⟩ := (hB.inside hr hwp (r := ⟨u ++ cfg.separator ++ q.1, w, v ++ cfg.separator ++ p.1⟩) hvn
      (by rw [← e1]; exact hun)).1 hm
    refine (hB'.inside hr' hwp' (r := ⟨u ++ cfg.separator ++ q'.1, w, v ++ cfg.separator ++ p'.1⟩) hvn' (by rw [← e2]; exact hun')).2
      ⟨k1, k2, fun e => k3 ?_⟩
    dsimp only at e ⊢
    rw [hpq.1 he] at e
    rw [name_inj e, he]
  · have hne : wp.1 ≠ wq.1 := by rw [ep, eq1]; exact he
    have hne' : wp'.1 ≠ wq'.1 := by rw [ep', eq1']; exact fun e => he (hpq.2 e)
    refine (hB'.between hmul hr' hwp' hwq' hne' hvn' hun').2 ?_
    exact CrossArc.kindred ap aq (disjoint_names (hB.names_nodup hr) hwp hwq hne) hvn ((hB.between hmul hr hwp hwq hne hvn hun).1 hm)

end

theorem Spec.ConceptOf.kindred [Ordered α] {cfg : GenConf α} {x x' : Ext α} {ts ts' : List String} {p p' : String × Column α}
    (hx : x'.fmt = x.fmt) (hs : SameColumn cfg x x' ts ts' p p') {v : String} (h : ConceptOf cfg x p (v ++ cfg.separator ++ p.1)) :
    ConceptOf cfg x' p' (v ++ cfg.separator ++ p'.1) := by
  unfold ConceptOf at h ⊢
  rw [hs.cells]
  split at h
  · rename_i hd
    rw [if_pos hd]
    obtain ⟨c, hc, e⟩ := h
    exact ⟨c, hc, by rw [text_fmt hx, ← name_inj e]⟩
  · rename_i hd
    rw [if_neg hd]
    obtain ⟨n, vl, memb, h1, i, hi, e⟩ := h
    exact ⟨n, vl, memb, by rw [hs.clusters (by simpa using hd)]; exact h1, i, hi, by rw [← name_inj e]⟩

section learned
variable {cfg : GenConf α} {x x' : Ext α} {ts ts' : List String} {cols cols' : List (String × Column α)}
  {given given' : Option (FCM α)} {fit fit' : Bool} {g0 g0' g g' : Gen α}

/-- C129: let `p` and `q` be columns of a table (or one column), and `p'` and `q'` columns of another table with the same cells
and roles. Then from a value of the one to a value of the other the same relation is learned from both tables, whatever
other columns there are, whatever the order of the columns and however they are called. -/
theorem C129_local [Ordered α] (hmul : ∀ a b : α, a * b = b * a) (ho : ∀ l, (x.order l).Perm l) (ho' : ∀ l, (x'.order l).Perm l)
    (hx : x'.fmt = x.fmt) (hr : Readable cfg x cols) (hr' : Readable cfg x' cols') (hg : ∀ m, given = some m → m.arcList = [])
    (hg' : ∀ m, given' = some m → m.arcList = []) (h0 : Gen.new fit = .ok g0) (h0' : Gen.new fit' = .ok g0')
    (h : Gen.build cfg x ts cols given g0 = (.ok (), g)) (h' : Gen.build cfg x' ts' cols' given' g0' = (.ok (), g'))
    {p q p' q' : String × Column α} (hp : p ∈ cols) (hq : q ∈ cols) (hp' : p' ∈ cols') (hq' : q' ∈ cols')
    (sp : SameColumn cfg x x' ts ts' p p') (sq : SameColumn cfg x x' ts ts' q q') (hpq : p.1 = q.1 ↔ p'.1 = q'.1) {u v : String} {w : α}
    (hv : ConceptOf cfg x p (v ++ cfg.separator ++ p.1)) (hu : ConceptOf cfg x q (u ++ cfg.separator ++ q.1)) :
    (⟨u ++ cfg.separator ++ q.1, w, v ++ cfg.separator ++ p.1⟩ : Arc α) ∈ g.fcm.arcList ↔
      (⟨u ++ cfg.separator ++ q'.1, w, v ++ cfg.separator ++ p'.1⟩ : Arc α) ∈ g'.fcm.arcList := by
  obtain ⟨m0, h1, h2⟩ := build_from h0 h
  obtain ⟨W, L, hB⟩ := buildFcm_built ho hr.columns h1
  obtain ⟨m0', h1', h2'⟩ := build_from h0' h'
  obtain ⟨W', L', hB'⟩ := buildFcm_built ho' hr'.columns h1'
  have e : g.fcm.arcList = L := by rw [hB.arcs, start_arcs hg h2]; rfl
  have e' : g'.fcm.arcList = L' := by rw [hB'.arcs, start_arcs hg' h2']; rfl
  rw [e, e']
  exact ⟨Built.local hmul hx hr hr' hB hB' hp hq hp' hq' sp sq hpq hv hu,
    Built.local hmul hx.symm hr' hr hB' hB hp' hq' hp hq sp.symm sq.symm hpq.symm (hv.kindred hx sp) (hu.kindred hx sq)⟩

/-- C129: leaving columns out of the table leaves out the relations of their concepts and changes nothing else. -/
theorem C129_drop [Ordered α] (hmul : ∀ a b : α, a * b = b * a) (ho : ∀ l, (x.order l).Perm l) (hr : Readable cfg x cols)
    (hsub : ∀ p ∈ cols', p ∈ cols) (hn' : (cols'.map (·.1)).Nodup) (ht : ∀ p ∈ cols', p.1 ∈ ts' ↔ p.1 ∈ ts)
    (hg : ∀ m, given = some m → m.arcList = []) (h0 : Gen.new fit = .ok g0) (h0' : Gen.new fit' = .ok g0')
    (h : Gen.build cfg x ts cols given g0 = (.ok (), g)) (h' : Gen.build cfg x ts' cols' given g0' = (.ok (), g')) (r : Arc α) :
    r ∈ g'.fcm.arcList ↔
      r ∈ g.fcm.arcList ∧ (∃ p ∈ cols', ConceptOf cfg x p r.origin) ∧ ∃ q ∈ cols', ConceptOf cfg x q r.dest := by
  have hr' : Readable cfg x cols' := ⟨hn', hr.sep, fun p hp => hr.feats p (hsub p hp), fun p hp => hr.values p (hsub p hp),
    fun p hp => hr.floats p (hsub p hp), fun p hp => hr.clusters p (hsub p hp)⟩
  have shape : ∀ {p : String × Column α} {c : String}, ConceptOf cfg x p c → ∃ v, c = v ++ cfg.separator ++ p.1 := by
    intro p c hc
    unfold ConceptOf at hc
    split at hc
    · obtain ⟨v, -, e⟩ := hc
      exact ⟨_, e⟩
    · obtain ⟨_, _, _, -, i, -, e⟩ := hc
      exact ⟨_, e⟩
  have key : ∀ {p q : String × Column α}, p ∈ cols' → q ∈ cols' → ConceptOf cfg x p r.origin → ConceptOf cfg x q r.dest →
      (r ∈ g.fcm.arcList ↔ r ∈ g'.fcm.arcList) := by
    intro p q hp hq hpo hqd
    obtain ⟨d, w, o⟩ := r
    dsimp only at hpo hqd
    obtain ⟨v, rfl⟩ := shape hpo
    obtain ⟨u, rfl⟩ := shape hqd
    exact C129_local hmul ho ho rfl hr hr' hg hg h0 h0' h h' (hsub p hp) (hsub q hq) hp hq (.refl rfl (ht p hp)) (.refl rfl (ht q hq))
      Iff.rfl hpo hqd
  constructor
  · intro hm
    have ends : (∃ p ∈ cols', ConceptOf cfg x p r.origin) ∧ ∃ q ∈ cols', ConceptOf cfg x q r.dest := by
      obtain ⟨m0', h1', h2'⟩ := build_from h0' h'
      obtain ⟨W', L', hB'⟩ := buildFcm_built ho hr'.columns h1'
      have e' : g'.fcm.arcList = L' := by rw [hB'.arcs, start_arcs hg h2']; rfl
      rw [e'] at hm
      have hWn := (List.nodup_flatMap.1 (hB'.names_nodup hr')).1
      have own : ∀ {w : Work α} {c}, w ∈ W' → c ∈ w.names → ∃ p ∈ cols', ConceptOf cfg x p c := by
        intro w c hw hc
        obtain ⟨p, hp, -, hF⟩ := hB'.of_work hw
        exact ⟨p, hp, (mem_names hF c).1 hc⟩
      rcases (hB'.mem r).1 hm with ⟨w, hw, hm⟩ | ⟨a, b, hs, hm⟩
      · unfold exclArcs at hm
        split at hm
        · cases hm
        · obtain ⟨-, k2, k3, -⟩ := (mem_innerArcs (hWn w hw)).1 hm
          exact ⟨own hw k2, own hw k3⟩
      · have ha : a ∈ W' := hs.subset (by simp)
        have hb : b ∈ W' := hs.subset (by simp)
        rcases crossArc_ends hm with ⟨k1, k2⟩ | ⟨k1, k2⟩
        · exact ⟨own hb k1, own ha k2⟩
        · exact ⟨own ha k1, own hb k2⟩
    obtain ⟨⟨p, hp, hpo⟩, q, hq, hqd⟩ := ends
    exact ⟨(key hp hq hpo hqd).2 hm, ⟨p, hp, hpo⟩, q, hq, hqd⟩
  · rintro ⟨hm, ⟨p, hp, hpo⟩, q, hq, hqd⟩
    exact (key hp hq hpo hqd).1 hm

/-- C129: other names for the columns give other names to the concepts; the relations are the same. -/
theorem C129_rename [Ordered α] (hmul : ∀ a b : α, a * b = b * a) (ho : ∀ l, (x.order l).Perm l) {ρ : String → String}
    (hr : Readable cfg x cols) (hr' : Readable cfg x (cols.map fun p => (ρ p.1, p.2))) (ht : ∀ p ∈ cols, ρ p.1 ∈ ts' ↔ p.1 ∈ ts)
    (hc : ∀ p ∈ cols, p.2.isDiscrete cfg = false → x.disc (ρ p.1) p.2.asFloats = x.disc p.1 p.2.asFloats)
    (hg : ∀ m, given = some m → m.arcList = []) (h0 : Gen.new fit = .ok g0) (h0' : Gen.new fit' = .ok g0')
    (h : Gen.build cfg x ts cols given g0 = (.ok (), g))
    (h' : Gen.build cfg x ts' (cols.map fun p => (ρ p.1, p.2)) given g0' = (.ok (), g'))
    {p q : String × Column α} (hp : p ∈ cols) (hq : q ∈ cols) {u v : String} {w : α}
    (hv : ConceptOf cfg x p (v ++ cfg.separator ++ p.1)) (hu : ConceptOf cfg x q (u ++ cfg.separator ++ q.1)) :
    (⟨u ++ cfg.separator ++ q.1, w, v ++ cfg.separator ++ p.1⟩ : Arc α) ∈ g.fcm.arcList ↔
      (⟨u ++ cfg.separator ++ ρ q.1, w, v ++ cfg.separator ++ ρ p.1⟩ : Arc α) ∈ g'.fcm.arcList := by
  refine C129_local (p' := (ρ p.1, p.2)) (q' := (ρ q.1, q.2)) hmul ho ho rfl hr hr' hg hg h0 h0' h h' hp hq
    (List.mem_map_of_mem hp) (List.mem_map_of_mem hq) ⟨rfl, ht p hp, hc p hp⟩ ⟨rfl, ht q hq, hc q hq⟩ ?_ hv hu
  constructor
  · intro e
    exact congrArg ρ e
  · intro e
    have hn := hr'.columns
    rw [List.map_map] at hn
    have := List.inj_on_of_nodup_map hn hp hq e
    rw [this]

/-- C129: so are the concepts: only their relations and the sum of the weights of these may differ. -/
theorem C129_concept [Ordered α] (ho : ∀ l, (x.order l).Perm l) (ho' : ∀ l, (x'.order l).Perm l) (hx : x'.fmt = x.fmt)
    (hr : Readable cfg x cols) (hr' : Readable cfg x' cols') (hg : ∀ m, given = some m → m.fitInclination = none)
    (h0 : Gen.new fit = .ok g0) (h0' : Gen.new fit' = .ok g0')
    (h : Gen.build cfg x ts cols given g0 = (.ok (), g)) (h' : Gen.build cfg x' ts' cols' given g0' = (.ok (), g'))
    {p p' : String × Column α} (hp : p ∈ cols) (hp' : p' ∈ cols') (sp : SameColumn cfg x x' ts ts' p p') {v : String}
    (hv : ConceptOf cfg x p (v ++ cfg.separator ++ p.1)) :
    ∃ a b, g.fcm.topology.get? (v ++ cfg.separator ++ p.1) = some a ∧ g'.fcm.topology.get? (v ++ cfg.separator ++ p'.1) = some b ∧
      b = { a with arcs := b.arcs, actvSum := b.actvSum } := by
  obtain ⟨m0, h1, h2⟩ := build_from h0 h
  obtain ⟨W, L, hB⟩ := buildFcm_built ho hr.columns h1
  obtain ⟨m0', h1', h2'⟩ := build_from h0' h'
  obtain ⟨W', L', hB'⟩ := buildFcm_built ho' hr'.columns h1'
  have e : m0' = m0 := by
    rcases h2 with hm | ⟨h1, hm⟩ <;> rcases h2' with hm' | ⟨h2, hm'⟩
    · rw [hm] at hm'; exact (Option.some.inj hm').symm
    · rw [hm] at h2; cases h2
    · rw [hm'] at h1; cases h1
    · rw [hm] at hm'; exact (Except.ok.inj hm').symm
  subst e
  have hfit : m0'.fitInclination = none := by
    rcases h2 with hm | ⟨-, hm⟩
    · exact hg _ hm
    · unfold FCM.new at hm
      split at hm <;> [cases hm; (split at hm <;> cases hm; rfl)]
  obtain ⟨w, hw, -, hF⟩ := hB.of_col hp
  obtain ⟨w', hw', -, hF'⟩ := hB'.of_col hp'
  have ha := FeatureOf.kindred hx sp hF hF'
  have hvn := (mem_names hF _).2 hv
  rw [← FeatureOf.args hF, List.mem_map] at hvn
  obtain ⟨⟨c, a⟩, hm, rfl⟩ := hvn
  obtain ⟨n0, n, hb1, hg1, hk1⟩ := hB.born (hB.names_nodup hr) w hw _ hm
  obtain ⟨n0', n', hb2, hg2, hk2⟩ := hB'.born (hB'.names_nodup hr') w' hw' _ (ha.args v a hm)
  have en : n0' = n0 := by
    obtain ⟨k, k1, rfl⟩ := hb1
    obtain ⟨k', k2, rfl⟩ := hb2
    rw [k1] at k2
    cases k2
    rfl
  refine ⟨n, n', hg1, hg2, ?_⟩
  have e1 := hk1.2.2.2.2.1 hfit
  have e2 := hk2.2.2.2.2.1 hfit
  rw [en] at e2
  rw [e2, e1]

end learned

/-! ### Concrete cases -/

namespace Ex

/-- The table of C103 without "size", and with other names for the columns. -/
def colsD : List (String × Column ℚ) := [("color", .strs ["red", "blue", "red"])] ++ ys
def british (f : String) : String := if f = "color" then "colour" else if f = "class" then "label" else f
def genD : Gen ℚ := (Gen.build conf ext ["class"] colsD none gen0).2
def genR : Gen ℚ := (Gen.build conf ext ["label"] (colsA.map fun p => (british p.1, p.2)) none gen0).2
theorem genD_fit : Gen.build conf ext ["class"] colsD none gen0 = (.ok (), genD) := pair_of _ (by decide +kernel)
theorem genR_fit : Gen.build conf ext ["label"] (colsA.map fun p => (british p.1, p.2)) none gen0 = (.ok (), genR) :=
  pair_of _ (by decide +kernel)

example (r : Arc ℚ) : r ∈ genD.fcm.arcList ↔
    r ∈ genA.fcm.arcList ∧ (∃ p ∈ colsD, ConceptOf conf ext p r.origin) ∧ ∃ q ∈ colsD, ConceptOf conf ext q r.dest :=
  C129_drop mul_comm (fun _ => .refl _) A_readable (fun p hp => by
    simp only [colsD, List.cons_append, List.nil_append, List.mem_cons] at hp
    simp only [xsA, List.cons_append, List.nil_append, List.mem_cons]
    exact hp.imp_right .inr) (by decide) (fun _ _ => .rfl) (given := none)
    (fun _ h => by cases h) gen0_new gen0_new genA_fit genD_fit r

theorem R_readable : Readable conf ext (colsA.map fun p => (british p.1, p.2)) := by
  refine readable_default rfl (by decide) (by decide) ?_ ?_
  · intro p hp _ c hc
    simp only [colsA, xsA, ys, List.cons_append, List.nil_append, List.map_cons, List.map_nil, List.mem_cons, List.not_mem_nil,
      or_false] at hp
    rcases hp with rfl | rfl | rfl <;> simp only [Spec.cells, List.map_cons, List.map_nil, List.mem_cons, List.not_mem_nil,
      or_false] at hc <;> rcases hc with rfl | rfl | rfl <;> simp only [Cell.text] <;> decide
  · intro p hp _ a b ha
    simp only [colsA, xsA, ys, List.cons_append, List.nil_append, List.map_cons, List.map_nil, List.mem_cons, List.not_mem_nil,
      or_false] at hp
    rcases hp with rfl | rfl | rfl <;> simp [Spec.cells] at ha

example {w : ℚ} : (⟨"yes___class", w, "red___color"⟩ : Arc ℚ) ∈ genA.fcm.arcList ↔
    (⟨"yes___label", w, "red___colour"⟩ : Arc ℚ) ∈ genR.fcm.arcList :=
  C129_rename (p := ("color", .strs ["red", "blue", "red"])) (q := ("class", .strs ["yes", "no", "yes"])) (u := "yes") (v := "red")
    mul_comm (fun _ => .refl _) (ρ := british) A_readable R_readable (by decide) (by decide) (given := none)
    (fun _ h => by cases h) gen0_new gen0_new genA_fit genR_fit (.head _) (.tail _ (.tail _ (.head _)))
    (by unfold ConceptOf; exact ⟨.str "red", by decide, rfl⟩) (by unfold ConceptOf; exact ⟨.str "yes", by decide, rfl⟩)

/-- The relations of the smaller table are some of those of the larger one. -/
theorem C129_compare :
    (genA.fcm.arcList.length, genD.fcm.arcList.length, genR.fcm.arcList.length) = (22, 8, 22) ∧
    (genD.fcm.arcList.filter fun r => r.origin = "red___color" ∧ r.dest = "yes___class").map Arc.weight =
      (genA.fcm.arcList.filter fun r => r.origin = "red___color" ∧ r.dest = "yes___class").map Arc.weight := by
  decide +kernel

end Ex

end PyFCM
