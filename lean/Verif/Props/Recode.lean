import Verif.Props.Local
import Verif.Props.Dataset
/-
C130: how the values of a categorical column are written does not matter for what is learned.
-/
namespace PyFCM
open Arith Spec

set_option linter.unusedSectionVars false

variable {α : Type} [Arith α]

/-- The column `p'` is the column `p` under another name and, if it is categorical, with its values written in another way:
different values stay different. `σ` says how the labels of the concepts change. -/
def Spec.Recoded (cfg : GenConf α) (x x' : Ext α) (ts ts' : List String) (σ : String → String) (p p' : String × Column α) : Prop :=
  (p'.1 ∈ ts' ↔ p.1 ∈ ts) ∧ p'.2.isDiscrete cfg = p.2.isDiscrete cfg ∧
    if p.2.isDiscrete cfg then
      ∃ τ : Cell α → Cell α, cells p'.2 = (cells p.2).map τ ∧ (∀ a ∈ cells p.2, ∀ b ∈ cells p.2, τ a = τ b → a = b) ∧
        ∀ a ∈ cells p.2, σ (a.text x) = (τ a).text x'
    else p'.2 = p.2 ∧ x'.disc p'.1 p.2.asFloats = x.disc p.1 p.2.asFloats ∧ ∀ i : Nat, σ (toString i) = toString i

/-- The rows of two features correspond. -/
structure Matched (cfg : GenConf α) (σ : String → String) (f f' : String) (F F' : Feature α) : Prop where
  type : F'.type = F.type
  rows : ∀ v d, (v ++ cfg.separator ++ f, d) ∈ F.rows → (σ v ++ cfg.separator ++ f', d) ∈ F'.rows
  inj : ∀ u v, u ++ cfg.separator ++ f ∈ F.names → v ++ cfg.separator ++ f ∈ F.names → σ u = σ v → u = v

theorem row_of_name {F : Feature α} (hl : F.names.length = F.desc.length) {c : String} (h : c ∈ F.names) : ∃ d, (c, d) ∈ F.rows := by
  rw [← rows_names hl, List.mem_map] at h
  obtain ⟨⟨_, d⟩, hm, rfl⟩ := h
  exact ⟨d, hm⟩

theorem FeatureOf.matched [Ordered α] {cfg : GenConf α} {x x' : Ext α} {ts ts' : List String} {p p' : String × Column α}
    {F F' : Feature α} {cs cs' : List (String × ConceptArgs α)} {σ : String → String} (hs : Recoded cfg x x' ts ts' σ p p')
    {cols' : List (String × Column α)} (hr' : Readable cfg x' cols') (hp' : p' ∈ cols')
    (h : FeatureOf cfg x ts p.1 p.2 F cs) (h' : FeatureOf cfg x' ts' p'.1 p'.2 F' cs') : Matched cfg σ p.1 p'.1 F F' := by
  classical
  obtain ⟨role, hd', hs⟩ := hs
  have hn := fun c => mem_names h c
  unfold FeatureOf at h h'
  rw [hd'] at h'
  split at h
  · rename_i hd
    rw [if_pos hd] at h' hs
    obtain ⟨a1, a2, a3, -⟩ := h
    obtain ⟨b1, b2, b3, -⟩ := h'
    obtain ⟨τ, t1, t2, t3⟩ := hs
    refine ⟨by rw [a1, b1]; simp only [role], ?_, ?_⟩
    · intro v d hm
      unfold Feature.rows at hm ⊢
      rw [a2, a3, oneHot_eq, List.zip_map', List.mem_map] at hm
      rw [b2, b3, oneHot_eq, List.zip_map', List.mem_map]
      obtain ⟨a, ha, e⟩ := hm
      obtain ⟨e1, e2⟩ := Prod.mk.inj e
      have ha := ((C35_values p.2).2 a).1 ha
      have e1 := name_inj e1
      refine ⟨τ a, ((C35_values p'.2).2 _).2 (by rw [t1]; exact List.mem_map_of_mem ha), Prod.ext ?_ ?_⟩
      · show nameConcept cfg p'.1 ((τ a).text x') = _
        rw [← t3 a ha, e1]
        rfl
      · show _ = d
        rw [← e2, t1, List.map_map]
        refine List.map_congr_left fun b hb => ?_
        have : τ b = τ a ↔ b = a := ⟨t2 b hb a ha, congrArg τ⟩
        simp only [Function.comp_apply, this]
    · intro u v hu hv e
      rw [hn] at hu hv
      unfold ConceptOf at hu hv
      rw [if_pos hd] at hu hv
      obtain ⟨a, ha, ea⟩ := hu
      obtain ⟨b, hb, eb⟩ := hv
      rw [name_inj ea, name_inj eb, t3 a ha, t3 b hb] at e
      have hin : ∀ c ∈ cells p.2, τ c ∈ cells p'.2 := fun c hc => by rw [t1]; exact List.mem_map_of_mem hc
      have := t2 a ha b hb (text_inj (hr'.floats p' hp' (by rw [hd']; exact hd)) (hin a ha) (hin b hb) e)
      rw [name_inj ea, name_inj eb, this]
  · rename_i hd
    rw [if_neg hd] at h' hs
    obtain ⟨t1, t2, t3⟩ := hs
    rw [t1] at h'
    obtain ⟨n, vl, memb, a0, -, a1, a2, a3, -⟩ := h
    obtain ⟨n', vl', memb', b0, -, b1, b2, b3, -⟩ := h'
    rw [t2, a0] at b0
    cases b0
    have e3 : F'.desc = F.desc := forall₂_func (fun _ b c h h' => by rw [h] at h'; exact Except.ok.inj h') b3 a3
    refine ⟨by rw [a1, b1]; simp only [role], ?_, ?_⟩
    · intro v d hm
      unfold Feature.rows at hm ⊢
      rw [a2, List.zip_map_left, List.mem_map] at hm
      rw [b2, e3, List.zip_map_left, List.mem_map]
      obtain ⟨⟨i, d'⟩, hi, e⟩ := hm
      obtain ⟨e1, e2⟩ := Prod.mk.inj e
      have e1 := name_inj e1
      have e2 : d' = d := e2
      refine ⟨(i, d'), hi, Prod.ext ?_ e2⟩
      show nameConcept cfg p'.1 (toString i) = _
      rw [← e1, t3]
      rfl
    · intro u v hu hv e
      rw [a2, List.mem_map] at hu hv
      obtain ⟨i, -, ea⟩ := hu
      obtain ⟨j, -, eb⟩ := hv
      have ea := name_inj ea
      have eb := name_inj eb
      rw [← ea, ← eb, t3, t3] at e
      rw [← ea, ← eb, e]

theorem Matched.names {cfg : GenConf α} {σ : String → String} {f f' : String} {F F' : Feature α} (h : Matched cfg σ f f' F F')
    (hl : F.names.length = F.desc.length) {v : String} (hm : v ++ cfg.separator ++ f ∈ F.names) :
    σ v ++ cfg.separator ++ f' ∈ F'.names := by
  obtain ⟨d, hd⟩ := row_of_name hl hm
  exact mem_names_of_rows (h.rows v d hd)

theorem Matched.back {cfg : GenConf α} {σ : String → String} {f f' : String} {F F' : Feature α} (h : Matched cfg σ f f' F F')
    (hl : F.names.length = F.desc.length) (hl' : F'.names.length = F'.desc.length) (hn : F'.names.Nodup) {v : String}
    (hm : v ++ cfg.separator ++ f ∈ F.names) {d : List α} (hd : (σ v ++ cfg.separator ++ f', d) ∈ F'.rows) :
    (v ++ cfg.separator ++ f, d) ∈ F.rows := by
  obtain ⟨d0, h0⟩ := row_of_name hl hm
  have h1 := h.rows v d0 h0
  rw [← rows_names hl'] at hn
  have := List.inj_on_of_nodup_map hn h1 hd rfl
  rw [← (Prod.mk.inj this).2]
  exact h0

/-- The pair rule looks at the rows of the two concepts and the types of the features only. -/
theorem CrossArc.transfer {cfg : GenConf α} {F F' G G' : Feature α} (hF : F'.type = F.type) (hG : G'.type = G.type)
    {o o' d d' : String} (ho : ∀ r, (o, r) ∈ F.rows → (o', r) ∈ F'.rows) (hd : ∀ r, (d, r) ∈ G.rows → (d', r) ∈ G'.rows)
    (hn : o ∉ G.names) {w : α} (h : CrossArc cfg F G ⟨d, w, o⟩) : CrossArc cfg F' G' ⟨d', w, o'⟩ := by
  obtain ⟨h1, pa, ha, pb, hb, pq, qp, hc, h2⟩ := h
  have e2 : sameGroup F' G' = sameGroup F G := by unfold sameGroup isTarget; rw [hF, hG]
  rcases h2 with ⟨s, w', e, h3, h4, h5⟩ | ⟨s, w', e, h3, h4, h5⟩
  · rw [Arc.mk.injEq] at e
    obtain ⟨e3, rfl, e4⟩ := e
    obtain ⟨pa1, pa2⟩ := pa
    obtain ⟨pb1, pb2⟩ := pb
    dsimp only at e3 e4 hc
    subst e3 e4
    exact ⟨by rw [e2]; exact h1, _, ho _ ha, _, hd _ hb, pq, qp, hc, .inl ⟨s, w, rfl, h3, h4.kindred hF hG, h5⟩⟩
  · exfalso
    rw [Arc.mk.injEq] at e
    refine hn ?_
    rw [e.2.2]
    exact mem_names_of_rows hb

section learned
variable {cfg : GenConf α} {x x' : Ext α} {ts ts' : List String} {cols cols' : List (String × Column α)}
  {given given' : Option (FCM α)} {fit fit' : Bool} {g0 g0' g g' : Gen α}

/-- C130: writing the values of categorical columns in another way renames the concepts and changes no relation. -/
theorem C130_recode [Ordered α] (hmul : ∀ a b : α, a * b = b * a) (ho : ∀ l, (x.order l).Perm l) (ho' : ∀ l, (x'.order l).Perm l)
    (hr : Readable cfg x cols) (hr' : Readable cfg x' cols') (hg : ∀ m, given = some m → m.arcList = [])
    (hg' : ∀ m, given' = some m → m.arcList = []) (h0 : Gen.new fit = .ok g0) (h0' : Gen.new fit' = .ok g0')
    (h : Gen.build cfg x ts cols given g0 = (.ok (), g)) (h' : Gen.build cfg x' ts' cols' given' g0' = (.ok (), g'))
    {σ : String → String → String} {p q p' q' : String × Column α} (hp : p ∈ cols) (hq : q ∈ cols) (hp' : p' ∈ cols') (hq' : q' ∈ cols')
    (sp : Recoded cfg x x' ts ts' (σ p.1) p p') (sq : Recoded cfg x x' ts ts' (σ q.1) q q') (hpq : p.1 = q.1 ↔ p'.1 = q'.1)
    {u v : String} {w : α} (hv : ConceptOf cfg x p (v ++ cfg.separator ++ p.1)) (hu : ConceptOf cfg x q (u ++ cfg.separator ++ q.1)) :
    (⟨u ++ cfg.separator ++ q.1, w, v ++ cfg.separator ++ p.1⟩ : Arc α) ∈ g.fcm.arcList ↔
      (⟨σ q.1 u ++ cfg.separator ++ q'.1, w, σ p.1 v ++ cfg.separator ++ p'.1⟩ : Arc α) ∈ g'.fcm.arcList := by
  obtain ⟨m0, h1, h2⟩ := build_from h0 h
  obtain ⟨W, L, hB⟩ := buildFcm_built ho hr.columns h1
  obtain ⟨m0', h1', h2'⟩ := build_from h0' h'
  obtain ⟨W', L', hB'⟩ := buildFcm_built ho' hr'.columns h1'
  have e : g.fcm.arcList = L := by rw [hB.arcs, start_arcs hg h2]; rfl
  have e' : g'.fcm.arcList = L' := by rw [hB'.arcs, start_arcs hg' h2']; rfl
  rw [e, e']
  obtain ⟨wp, hwp, ep, hFp⟩ := hB.of_col hp
  obtain ⟨wq, hwq, eq1, hFq⟩ := hB.of_col hq
  obtain ⟨wp', hwp', ep', hFp'⟩ := hB'.of_col hp'
  obtain ⟨wq', hwq', eq1', hFq'⟩ := hB'.of_col hq'
  have ap := FeatureOf.matched sp hr' hp' hFp hFp'
  have aq := FeatureOf.matched sq hr' hq' hFq hFq'
  have hvn := (mem_names hFp _).2 hv
  have hun := (mem_names hFq _).2 hu
  have hvn' := ap.names hFp.length hvn
  have hun' := aq.names hFq.length hun
  by_cases he : p.1 = q.1
  · have hWk : (W.map (·.1)).Nodup := by rw [hB.wnames]; exact hr.columns
    have hWk' : (W'.map (·.1)).Nodup := by rw [hB'.wnames]; exact hr'.columns
    have e1 : wq = wp := List.inj_on_of_nodup_map hWk hwq hwp (by rw [ep, eq1, he])
    have e2 : wq' = wp' := List.inj_on_of_nodup_map hWk' hwq' hwp' (by rw [ep', eq1', hpq.1 he])
    rw [hB.inside hr hwp (r := ⟨u ++ cfg.separator ++ q.1, w, v ++ cfg.separator ++ p.1⟩) hvn (by rw [← e1]; exact hun),
      hB'.inside hr' hwp' (r := ⟨σ q.1 u ++ cfg.separator ++ q'.1, w, σ p.1 v ++ cfg.separator ++ p'.1⟩) hvn'
      (by rw [← e2]; exact hun')]
    dsimp only
    rw [← hpq.1 he, ← he]
    have : (v ++ cfg.separator ++ p.1 = u ++ cfg.separator ++ p.1) ↔
        (σ p.1 v ++ cfg.separator ++ p'.1 = σ p.1 u ++ cfg.separator ++ p'.1) := by
      constructor
      · intro k
        rw [name_inj k]
      · intro k
        rw [ap.inj v u hvn (by rw [e1] at hun; rw [he]; exact hun) (name_inj k)]
    rw [Ne, this]
  · have hne : wp.1 ≠ wq.1 := by rw [ep, eq1]; exact he
    have hne' : wp'.1 ≠ wq'.1 := by rw [ep', eq1']; exact fun e => he (hpq.2 e)
    rw [hB.between hmul hr hwp hwq hne hvn hun, hB'.between hmul hr' hwp' hwq' hne' hvn' hun']
    exact ⟨CrossArc.transfer ap.type aq.type (ap.rows v) (aq.rows u) (disjoint_names (hB.names_nodup hr) hwp hwq hne _ hvn),
      CrossArc.transfer ap.type.symm aq.type.symm (fun _ k => ap.back hFp.length hFp'.length (hFp'.nodup hr' hp') hvn k)
        (fun _ k => aq.back hFq.length hFq'.length (hFq'.nodup hr' hq') hun k)
        (disjoint_names (hB'.names_nodup hr') hwp' hwq' hne' _ hvn')⟩

end learned

/-- C130: every concept of the recoded column is a renamed concept of the column. -/
theorem C130_onto {cfg : GenConf α} {x x' : Ext α} {ts ts' : List String} {σ : String → String} {p p' : String × Column α}
    (hs : Recoded cfg x x' ts ts' σ p p') {c : String} (hc : ConceptOf cfg x' p' c) :
    ∃ v, ConceptOf cfg x p (v ++ cfg.separator ++ p.1) ∧ c = σ v ++ cfg.separator ++ p'.1 := by
  obtain ⟨-, hd', hs⟩ := hs
  unfold ConceptOf at hc
  rw [hd'] at hc
  split at hc
  · rename_i hd
    rw [if_pos hd] at hs
    obtain ⟨τ, t1, -, t3⟩ := hs
    obtain ⟨b, hb, rfl⟩ := hc
    rw [t1, List.mem_map] at hb
    obtain ⟨a, ha, rfl⟩ := hb
    refine ⟨a.text x, ?_, by rw [t3 a ha]⟩
    unfold ConceptOf
    rw [if_pos hd]
    exact ⟨a, ha, rfl⟩
  · rename_i hd
    rw [if_neg hd] at hs
    obtain ⟨t1, t2, t3⟩ := hs
    obtain ⟨n, vl, memb, h1, i, hi, rfl⟩ := hc
    rw [t1, t2] at h1
    refine ⟨toString i, ?_, by rw [t3]⟩
    unfold ConceptOf
    rw [if_neg hd]
    exact ⟨n, vl, memb, h1, i, hi, rfl⟩

theorem factorize_codes {β : Type} [DecidableEq β] (xs : List β) : (factorize xs).1 = xs.map fun v => (factorize xs).2.idxOf v := by
  have hl : (factorize xs).1.length = xs.length := (factorizeLoop_spec xs [] List.nodup_nil).2.2.1
  have hn := (C58_faithful xs).1
  refine List.ext_getElem (by simp [hl]) fun i h1 h2 => ?_
  have hi : i < xs.length := by simpa using h2
  obtain ⟨k, hk, hx⟩ := C58_lossless xs i xs[i] (List.getElem?_eq_getElem hi)
  rw [List.getElem?_eq_getElem h1, Option.some.injEq] at hk
  obtain ⟨hkl, hke⟩ := List.getElem?_eq_some_iff.1 hx
  rw [List.getElem_map, ← hke, hn.idxOf_getElem, hk]

/-- C130: in particular a column of texts may be factorised first (as `load_csv_dataset` and `load_dataset` do) if it has fewer than ten
different values and the generator may take numbers for categories: each concept is then called after the code of its value. -/
theorem C130_factorize [Ordered α] {cfg : GenConf α} {x : Ext α} {ts : List String} {f : String} {xs : List String}
    (hi : cfg.inferType = true) (hn : (factorize xs).2.length < 10) :
    Recoded cfg x x ts ts (fun s => toString ((factorize xs).2.idxOf s : Int)) (f, .strs xs)
      (f, .ints ((factorize xs).1.map fun k : Nat => (k : Int))) := by
  have hcells : cells (Column.ints ((factorize xs).1.map fun k : Nat => (k : Int)) : Column α) =
      (cells (Column.strs xs)).map fun c => match c with
        | .str s => .int ((factorize xs).2.idxOf s : Int)
        | c => c := by
    simp only [cells, factorize_codes xs, List.map_map]
    rfl
  have hd : (Column.ints ((factorize xs).1.map fun k : Nat => (k : Int)) : Column α).isDiscrete cfg = true := by
    show (cfg.inferType && decide _) = true
    rw [hi, Bool.true_and, decide_eq_true_eq]
    refine lt_of_le_of_lt ?_ hn
    obtain ⟨h1, h2⟩ := C35_values (Column.ints ((factorize xs).1.map fun k : Nat => (k : Int)) : Column α)
    have := (h1.subperm (l₂ := (factorize xs).2.map fun s => (.int ((factorize xs).2.idxOf s : Int) : Cell α)) (by
      intro c hc
      rw [h2, hcells] at hc
      simp only [cells, List.map_map, List.mem_map] at hc
      obtain ⟨s, hs, rfl⟩ := hc
      exact List.mem_map.2 ⟨s, ((C58_faithful xs).2.1 s).2 hs, rfl⟩)).length_le
    simpa using this
  refine ⟨.rfl, hd, ?_⟩
  rw [if_pos (show Column.isDiscrete cfg (f, Column.strs xs).2 = true from rfl)]
  refine ⟨_, hcells, ?_, ?_⟩
  · intro a ha b hb e
    simp only [cells, List.mem_map] at ha hb
    obtain ⟨s, hs, rfl⟩ := ha
    obtain ⟨t, ht, rfl⟩ := hb
    have e := Cell.int.inj e
    have e : (factorize xs).2.idxOf s = (factorize xs).2.idxOf t := by exact_mod_cast e
    rw [(List.idxOf_inj (((C58_faithful xs).2.1 s).2 hs)).1 e]
  · intro a ha
    simp only [cells, List.mem_map] at ha
    obtain ⟨s, hs, rfl⟩ := ha
    rfl

/-- C130: with ten or more different values it may not: the texts are categories, but the codes are taken for a quantity and
clustered, so each concept stands for values that have nothing in common but their place in the table. -/
theorem C130_many [Ordered α] (cfg : GenConf α) {xs : List String} (hn : 10 ≤ (factorize xs).2.length) :
    (Column.strs xs : Column α).isDiscrete cfg = true ∧
      (Column.ints ((factorize xs).1.map fun k : Nat => (k : Int)) : Column α).isDiscrete cfg = false := by
  refine ⟨rfl, ?_⟩
  show (cfg.inferType && decide _) = false
  rw [Bool.and_eq_false_iff, decide_eq_false_iff_not]
  refine .inr (not_lt.2 (hn.trans ?_))
  obtain ⟨-, h2⟩ := C35_values (Column.ints ((factorize xs).1.map fun k : Nat => (k : Int)) : Column α)
  have hnd : ((factorize xs).2.map fun s => (.int ((factorize xs).2.idxOf s : Int) : Cell α)).Nodup := by
    refine List.Nodup.map_on ?_ (C58_faithful xs).1
    intro s hs t _ e
    have e := Cell.int.inj e
    have e : (factorize xs).2.idxOf s = (factorize xs).2.idxOf t := by exact_mod_cast e
    exact (List.idxOf_inj hs).1 e
  have := (hnd.subperm (l₂ := (Column.ints ((factorize xs).1.map fun k : Nat => (k : Int)) : Column α).uniqCells) (by
    intro c hc
    obtain ⟨s, hs, rfl⟩ := List.mem_map.1 hc
    rw [h2, factorize_codes xs]
    simp only [cells, List.map_map, List.mem_map]
    exact ⟨s, ((C58_faithful xs).2.1 s).1 hs, rfl⟩)).length_le
  simpa using this

/-! ### Concrete cases -/

namespace Ex

/-- The table of C103 with the colours as numbers. -/
def colsF : List (String × Column ℚ) :=
  [("color", .ints ((factorize ["red", "blue", "red"]).1.map fun k : Nat => (k : Int))), ("size", .ints [1, 2, 2])] ++ ys
def genF : Gen ℚ := (Gen.build conf ext ["class"] colsF none gen0).2
theorem genF_fit : Gen.build conf ext ["class"] colsF none gen0 = (.ok (), genF) := pair_of _ (by decide +kernel)
theorem F_readable : Readable conf ext colsF := by
  refine readable_default rfl (by decide) (by decide) ?_ ?_
  · intro p hp _ c hc
    simp only [colsF, ys, List.cons_append, List.nil_append, List.mem_cons, List.not_mem_nil, or_false] at hp
    rcases hp with rfl | rfl | rfl
    · rw [show (factorize ["red", "blue", "red"]).1 = [0, 1, 0] by decide] at hc
      simp only [Spec.cells, List.map_cons, List.map_nil, List.mem_cons, List.not_mem_nil, or_false] at hc
      rcases hc with rfl | rfl | rfl <;> simp only [Cell.text] <;> decide
    all_goals
      simp only [Spec.cells, List.map_cons, List.map_nil, List.mem_cons, List.not_mem_nil, or_false] at hc
      rcases hc with rfl | rfl | rfl <;> simp only [Cell.text] <;> decide
  · intro p hp _ a b ha
    simp only [colsF, ys, List.cons_append, List.nil_append, List.mem_cons, List.not_mem_nil, or_false] at hp
    rcases hp with rfl | rfl | rfl <;> simp [Spec.cells] at ha

/-- Labels of "color" become codes; the other columns stay as they are. -/
def coded (f s : String) : String := if f = "color" then toString ((factorize ["red", "blue", "red"]).2.idxOf s : Int) else s

theorem recoded_same {p : String × Column ℚ} {ts : List String} {σ : String → String} (h : ∀ s, σ s = s) :
    Recoded conf ext ext ts ts σ p p := by
  refine ⟨.rfl, rfl, ?_⟩
  split
  · exact ⟨id, by simp, fun a _ b _ e => e, fun a _ => h _⟩
  · exact ⟨rfl, rfl, fun i => h _⟩

example {w : ℚ} : (⟨"yes___class", w, "blue___color"⟩ : Arc ℚ) ∈ genA.fcm.arcList ↔
    (⟨"yes___class", w, "1___color"⟩ : Arc ℚ) ∈ genF.fcm.arcList := by
  have := C130_recode (w := w) (p := ("color", .strs ["red", "blue", "red"])) (q := ("class", .strs ["yes", "no", "yes"]))
    (p' := ("color", .ints ((factorize ["red", "blue", "red"]).1.map fun k : Nat => (k : Int))))
    (q' := ("class", .strs ["yes", "no", "yes"])) (u := "yes") (v := "blue") (σ := coded)
    mul_comm (fun _ => .refl _) (fun _ => .refl _) A_readable F_readable (given := none) (given' := none)
    (fun _ h => by cases h) (fun _ h => by cases h) gen0_new gen0_new genA_fit genF_fit (.head _) (.tail _ (.tail _ (.head _)))
    (.head _) (.tail _ (.tail _ (.head _))) (C130_factorize rfl (by decide)) (recoded_same fun s => rfl) .rfl
    (by unfold ConceptOf; exact ⟨.str "blue", by decide, rfl⟩) (by unfold ConceptOf; exact ⟨.str "yes", by decide, rfl⟩)
  exact this

theorem C130_compare :
    genF.fcm.arcList.length = genA.fcm.arcList.length ∧
    (genF.fcm.arcList.filter fun r => r.origin = "0___color" ∧ r.dest = "yes___class").map Arc.weight =
      (genA.fcm.arcList.filter fun r => r.origin = "red___color" ∧ r.dest = "yes___class").map Arc.weight := by
  decide +kernel

example : (Column.ints ((factorize ["a", "b", "c", "d", "e", "f", "g", "h", "i", "j"]).1.map fun k : Nat => (k : Int)) : Column ℚ).isDiscrete conf =
    false := (C130_many conf (xs := ["a", "b", "c", "d", "e", "f", "g", "h", "i", "j"]) (by decide)).2

end Ex

end PyFCM
