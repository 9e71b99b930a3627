import Verif.Lemmas.Twin
import Verif.Lemmas.Uniq
import Mathlib.Data.List.Forall2
import Mathlib.Data.List.Nodup
/-
What `build_fcm` puts into a map.
-/
namespace PyFCM
open Arith

set_option linter.unusedSectionVars false

variable {α : Type} [Arith α]

theorem onFcm_ok {p : PyM (FCM α) Unit} {g g' : Gen α} (h : Gen.onFcm p g = (.ok (), g')) :
    ∃ m, p g.fcm = (.ok (), m) ∧ g' = { g with fcm := m } := by
  unfold Gen.onFcm at h
  rcases hp : p g.fcm with ⟨r, m⟩
  rw [hp] at h
  obtain ⟨h1, h2⟩ := Prod.mk.inj h
  subst h1
  exact ⟨m, rfl, h2.symm⟩

/-! ### Adding relations -/

/-- What a node keeps when relations are added. -/
def Kin (fit : Option α) (n n' : Node α) : Prop :=
  n'.type = n.type ∧ n'.fuzzyAct = n.fuzzyAct ∧ n'.active = n.active ∧ n'.fn.map (·.name) = n.fn.map (·.name) ∧
    (fit = none → n' = { n with arcs := n'.arcs, actvSum := n'.actvSum }) ∧ n'.exec = n.exec ∧ n'.useMem = n.useMem ∧ n'.useMapFunc = n.useMapFunc

theorem Kin.refl (fit : Option α) (n : Node α) : Kin fit n n := ⟨rfl, rfl, rfl, rfl, fun _ => rfl, rfl, rfl, rfl⟩

theorem Kin.trans {fit : Option α} {a b c : Node α} (h : Kin fit a b) (h' : Kin fit b c) : Kin fit a c :=
  ⟨h'.1.trans h.1, h'.2.1.trans h.2.1, h'.2.2.1.trans h.2.2.1, h'.2.2.2.1.trans h.2.2.2.1,
    fun hf => (by rw [h'.2.2.2.2.1 hf, h.2.2.2.2.1 hf]), h'.2.2.2.2.2.1.trans h.2.2.2.2.2.1,
    h'.2.2.2.2.2.2.1.trans h.2.2.2.2.2.2.1, h'.2.2.2.2.2.2.2.trans h.2.2.2.2.2.2.2⟩

/-- Fitting the slope of a related concept to `t` again changes nothing. -/
def SlopeOk (t : α) (m : FCM α) : Prop := ∀ a ∈ m.arcList, ∀ n, m.topology.get? a.dest = some n → fitSlope t n = .ok n

theorem fitSlope_arcs {t : α} {n : Node α} (arcs : List (String × α)) (h : fitSlope t n = .ok n) :
    fitSlope t { n with arcs := arcs } = .ok { n with arcs := arcs } := by
  unfold fitSlope at h ⊢
  dsimp only
  split at h
  · cases h
  · rename_i f hf
    split at h
    · cases h
    · rename_i l hl
      have h := Except.ok.inj h
      have h1 := congrArg Node.fn h
      have h2 := congrArg Node.argsVect h
      dsimp only at h1 h2
      simp only [hf] at h1 ⊢
      rw [h1, h2]
    · simp only [hf]

theorem fitSlope_again {t : α} {n n' : Node α} (h : fitSlope t n = .ok n') : fitSlope t n' = .ok n' := by
  unfold fitSlope at h
  split at h
  · cases h
  · rename_i f hf
    split at h
    · cases h
    · rename_i l hl
      cases h
      unfold fitSlope
      simp only [hl]
    · rename_i hl
      cases h
      unfold fitSlope
      simp only [hf, hl]

theorem addRelation_slope {m m' : FCM α} {o d : String} {w t : α} (ho : o ∈ m.topology.keys) (hd : d ∈ m.topology.keys)
    (hfit : m.fitInclination = some t) (hs : SlopeOk t m) (h : FCM.addRelation o d w m = (.ok (), m')) : SlopeOk t m' := by
  unfold FCM.addRelation at h
  rw [if_pos (by simp [Dict.has_iff, ho, hd])] at h
  simp only [hfit] at h
  have hget : ∀ c, c ≠ d →
      Dict.get? ((m.topology.modify o fun n => { n with arcs := n.arcs ++ [(d, w)] }).modify d
        fun n => { n with actvSum := n.actvSum + w }) c =
      (m.topology.get? c).map fun n => { n with arcs := if c = o then n.arcs ++ [(d, w)] else n.arcs } := by
    intro c hc
    rw [Dict.get?_modify, Dict.get?_modify, if_neg (Ne.symm hc)]
    by_cases h1 : o = c
    · simp [h1]
    · simp [h1, Ne.symm h1]
  generalize ht : (m.topology.modify o fun n => { n with arcs := n.arcs ++ [(d, w)] }).modify d
        (fun n => { n with actvSum := n.actvSum + w }) = T at *
  split at h
  · cases h
  · split at h
    · cases h
    · rename_i n' hn'
      cases h
      intro a ha n hn
      dsimp only at ha hn
      rw [Dict.get?_set] at hn
      by_cases hdc : d = a.dest
      · rw [if_pos hdc] at hn
        cases hn
        exact fitSlope_again hn'
      · rw [if_neg hdc, hget a.dest (Ne.symm hdc)] at hn
        rcases List.mem_append.1 ha with ha | ha
        · cases hk : m.topology.get? a.dest with
          | none => rw [hk] at hn; cases hn
          | some n1 =>
            rw [hk] at hn
            cases hn
            exact fitSlope_arcs _ (hs a ha n1 hk)
        · rw [List.mem_singleton] at ha
          subst ha
          exact absurd rfl hdc

/-- `g'` is `g` with the relations `L` added to its map. -/
structure Adds (g : Gen α) (L : List (Arc α)) (g' : Gen α) : Prop where
  features : g'.features = g.features
  processed : g'.processed = g.processed
  clean : CleanInv g.fcm → CleanInv g'.fcm
  keys : g'.fcm.topology.keys = g.fcm.topology.keys
  arcs : g'.fcm.arcList = g.fcm.arcList ++ L
  fit : g'.fcm.fitInclination = g.fcm.fitInclination
  default : g'.fcm.default = g.fcm.default
  nodes : ∀ c n, g.fcm.topology.get? c = some n → ∃ n', g'.fcm.topology.get? c = some n' ∧ Kin g.fcm.fitInclination n n'
  slope : ∀ t, g.fcm.fitInclination = some t → SlopeOk t g.fcm → SlopeOk t g'.fcm
  linked : Linked g.fcm → Linked g'.fcm
  ekeys : g'.fcm.execution.keys = g.fcm.execution.keys

theorem Adds.refl (g : Gen α) : Adds g [] g :=
  ⟨rfl, rfl, id, rfl, by simp, rfl, rfl, fun _ n hn => ⟨n, hn, Kin.refl _ _⟩, fun _ _ h => h, id, rfl⟩

theorem Adds.trans {g g1 g2 : Gen α} {L L' : List (Arc α)} (h : Adds g L g1) (h' : Adds g1 L' g2) : Adds g (L ++ L') g2 := by
  refine ⟨h'.features.trans h.features, h'.processed.trans h.processed, fun c => h'.clean (h.clean c),
    h'.keys.trans h.keys, ?_, h'.fit.trans h.fit, h'.default.trans h.default, ?_,
    fun t hf hs => h'.slope t (by rw [h.fit]; exact hf) (h.slope t hf hs), fun hl => h'.linked (h.linked hl),
    h'.ekeys.trans h.ekeys⟩
  · rw [h'.arcs, h.arcs, List.append_assoc]
  · intro c n hn
    obtain ⟨n1, hn1, k1⟩ := h.nodes c n hn
    obtain ⟨n2, hn2, k2⟩ := h'.nodes c n1 hn1
    rw [h.fit] at k2
    exact ⟨n2, hn2, k1.trans k2⟩

theorem addRelation_fit (o d : String) (w : α) (m : FCM α) :
    (FCM.addRelation o d w m).2.fitInclination = m.fitInclination := by
  unfold FCM.addRelation
  dsimp only
  repeat' split
  all_goals rfl

theorem addRelation_execution (o d : String) (w : α) (m : FCM α) :
    (FCM.addRelation o d w m).2.execution = m.execution := by
  unfold FCM.addRelation
  dsimp only
  repeat' split
  all_goals rfl

theorem adds_relation {g g' : Gen α} {o d : String} {w : α} (ho : o ∈ g.fcm.topology.keys)
    (hd : d ∈ g.fcm.topology.keys) (h : Gen.onFcm (FCM.addRelation o d w) g = (.ok (), g')) :
    Adds g [⟨d, w, o⟩] g' := by
  obtain ⟨m, hm, rfl⟩ := onFcm_ok h
  obtain ⟨k1, k2, k3, k4, k5, hall⟩ := addRelation_ok ho hd hm
  refine ⟨rfl, rfl, fun c => Op.clean (op := .addRelation o d w) c hm, k1, k3, ?_, k4, ?_,
    fun t hf hs => addRelation_slope ho hd hf hs hm, fun hl => addRelation_linked hl hm, ?_⟩
  · have := addRelation_fit o d w g.fcm
    rw [hm] at this
    exact this
  · intro c n hn
    obtain ⟨n', f', v', hn', e, hcase⟩ := hall c n hn
    refine ⟨n', hn', ?_⟩
    rw [e]
    rcases hcase with ⟨rfl, rfl⟩ | ⟨-, hfit, f, l, hf, rfl, rfl⟩
    · exact ⟨rfl, rfl, rfl, rfl, fun _ => rfl, rfl, rfl, rfl⟩
    · refine ⟨rfl, rfl, rfl, ?_, fun h => absurd h hfit, rfl, rfl, rfl⟩
      rw [hf]; rfl
  · have := addRelation_execution o d w g.fcm
    rw [hm] at this
    exact congrArg Dict.keys this

/-- A loop whose rounds add relations adds all of them. -/
theorem forEach_adds {ι : Type} {f : ι → PyM (Gen α) Unit} {Q : ι → List (Arc α) → Prop} {xs : List ι} {g g' : Gen α}
    (hf : ∀ x ∈ xs, ∀ g1 g2 : Gen α, g1.features = g.features → g1.fcm.topology.keys = g.fcm.topology.keys →
      f x g1 = (.ok (), g2) → ∃ L, Adds g1 L g2 ∧ Q x L)
    (h : PyM.forEach xs f g = (.ok (), g')) : ∃ Ls, List.Forall₂ Q xs Ls ∧ Adds g Ls.flatten g' := by
  suffices hh : ∀ (xs : List ι) (g1 : Gen α), (∀ x ∈ xs, ∀ g1 g2 : Gen α, g1.features = g.features →
      g1.fcm.topology.keys = g.fcm.topology.keys → f x g1 = (.ok (), g2) → ∃ L, Adds g1 L g2 ∧ Q x L) →
      g1.features = g.features → g1.fcm.topology.keys = g.fcm.topology.keys →
      PyM.forEach xs f g1 = (.ok (), g') → ∃ Ls, List.Forall₂ Q xs Ls ∧ Adds g1 Ls.flatten g' from
    hh xs g hf rfl rfl h
  intro xs
  induction xs with
  | nil =>
    intro g1 _ _ _ h
    simp only [PyM.forEach] at h
    cases h
    exact ⟨[], .nil, Adds.refl _⟩
  | cons x xs ih =>
    intro g1 hf e1 e2 h
    simp only [PyM.forEach] at h
    split at h
    · rename_i g2 h1
      obtain ⟨L, hL, hQ⟩ := hf x (by simp) g1 g2 e1 e2 h1
      obtain ⟨Ls, hLs, hA⟩ := ih g2 (fun y hy => hf y (by simp [hy])) (hL.features.trans e1) (hL.keys.trans e2) h
      exact ⟨L :: Ls, .cons hQ hLs, by simpa using hL.trans hA⟩
    · cases h

theorem mem_flatten_forall₂ {ι β : Type} {Q : ι → List β → Prop} {P : ι → β → Prop} {xs : List ι} {Ls : List (List β)}
    (h : List.Forall₂ Q xs Ls) (hQ : ∀ x ∈ xs, ∀ L, Q x L → ∀ b, b ∈ L ↔ P x b) (b : β) :
    b ∈ Ls.flatten ↔ ∃ x ∈ xs, P x b := by
  induction h with
  | nil => simp
  | cons h1 h2 ih =>
    rw [List.flatten_cons, List.mem_append, ih fun x hx => hQ x (by simp [hx]), hQ _ (by simp) _ h1]
    simp

theorem flatten_sublist {ι β γ : Type} {Q : ι → List β → Prop} {e : β → γ} {u : ι → List γ} {xs : List ι}
    {Ls : List (List β)} (h : List.Forall₂ Q xs Ls) (hQ : ∀ x ∈ xs, ∀ L, Q x L → (L.map e).Sublist (u x)) :
    (Ls.flatten.map e).Sublist (xs.flatMap u) := by
  induction h with
  | nil => simp
  | cons h1 h2 ih =>
    rw [List.flatten_cons, List.map_append, List.flatMap_cons]
    exact (hQ _ (by simp) _ h1).append (ih fun x hx => hQ x (by simp [hx]))

/-- Origin and destiny of a relation. -/
def Arc.ends (a : Arc α) : String × String := (a.origin, a.dest)

/-! ### Exclusion relations -/

/-- Both directions between a concept and the later ones. -/
def bothWays (e : α) (a : String) (bs : List String) : List (Arc α) := bs.flatMap fun b => [⟨b, e, a⟩, ⟨a, e, b⟩]

def innerArcs (e : α) : List String → List (Arc α)
  | [] => []
  | a :: as => bothWays e a as ++ innerArcs e as

theorem innerRow_adds {e : α} {a : String} : ∀ {bs : List String} {g g' : Gen α}, a ∈ g.fcm.topology.keys →
    (∀ b ∈ bs, b ∈ g.fcm.topology.keys) → innerRow e a bs g = (.ok (), g') → Adds g (bothWays e a bs) g'
  | [], g, g', _, _, h => by cases h; exact Adds.refl _
  | b :: bs, g, g', ha, hb, h => by
    unfold innerRow at h
    obtain ⟨_, g1, h1, h⟩ := bind_okP h
    obtain ⟨_, g2, h2, h⟩ := bind_okP h
    have a1 := adds_relation ha (hb b (by simp)) h1
    have a2 := adds_relation (by rw [a1.keys]; exact hb b (by simp)) (by rw [a1.keys]; exact ha) h2
    have a3 := innerRow_adds (by rw [a2.keys, a1.keys]; exact ha)
      (fun c hc => by rw [a2.keys, a1.keys]; exact hb c (by simp [hc])) h
    exact (a1.trans a2).trans a3

theorem innerLoop_adds {e : α} : ∀ {ns : List String} {g g' : Gen α}, (∀ b ∈ ns, b ∈ g.fcm.topology.keys) →
    innerLoop e ns g = (.ok (), g') → Adds g (innerArcs e ns) g'
  | [], g, g', _, h => by cases h; exact Adds.refl _
  | a :: as, g, g', hb, h => by
    unfold innerLoop at h
    obtain ⟨_, g1, h1, h⟩ := bind_okP h
    have a1 := innerRow_adds (hb a (by simp)) (fun b hb' => hb b (by simp [hb'])) h1
    exact a1.trans (innerLoop_adds (fun b hb' => by rw [a1.keys]; exact hb b (by simp [hb'])) h)

theorem mem_bothWays {e : α} {a : String} {bs : List String} {r : Arc α} :
    r ∈ bothWays e a bs ↔ r.weight = e ∧ (r.origin = a ∧ r.dest ∈ bs ∨ r.dest = a ∧ r.origin ∈ bs) := by
  obtain ⟨d, w, o⟩ := r
  unfold bothWays
  simp only [List.mem_flatMap, List.mem_cons, List.not_mem_nil, or_false, Arc.mk.injEq]
  constructor
  · rintro ⟨b, hb, ⟨rfl, rfl, rfl⟩ | ⟨rfl, rfl, rfl⟩⟩
    · exact ⟨rfl, .inl ⟨rfl, hb⟩⟩
    · exact ⟨rfl, .inr ⟨rfl, hb⟩⟩
  · rintro ⟨rfl, ⟨rfl, hb⟩ | ⟨rfl, hb⟩⟩
    · exact ⟨d, hb, .inl ⟨rfl, rfl, rfl⟩⟩
    · exact ⟨o, hb, .inr ⟨rfl, rfl, rfl⟩⟩

theorem mem_innerArcs {e : α} {ns : List String} (hn : ns.Nodup) {r : Arc α} :
    r ∈ innerArcs e ns ↔ r.weight = e ∧ r.origin ∈ ns ∧ r.dest ∈ ns ∧ r.origin ≠ r.dest := by
  induction ns with
  | nil => simp [innerArcs]
  | cons a as ih =>
    rw [List.nodup_cons] at hn
    simp only [innerArcs, List.mem_append, mem_bothWays, ih hn.2, List.mem_cons]
    constructor
    · rintro (⟨h1, ⟨h2, h3⟩ | ⟨h2, h3⟩⟩ | ⟨h1, h2, h3, h4⟩)
      · exact ⟨h1, .inl h2, .inr h3, fun h => hn.1 (by rw [← h2, h]; exact h3)⟩
      · exact ⟨h1, .inr h3, .inl h2, fun h => hn.1 (by rw [← h2, ← h]; exact h3)⟩
      · exact ⟨h1, .inr h2, .inr h3, h4⟩
    · rintro ⟨h1, h2 | h2, h3 | h3, h4⟩
      · exact absurd (h2.trans h3.symm) h4
      · exact .inl ⟨h1, .inl ⟨h2, h3⟩⟩
      · exact .inl ⟨h1, .inr ⟨h3, h2⟩⟩
      · exact .inr ⟨h1, h2, h3, h4⟩

theorem nodup_bothWays {a : String} {bs : List String} (e : α) (hn : bs.Nodup) (ha : a ∉ bs) :
    ((bothWays e a bs).map Arc.ends).Nodup := by
  induction bs with
  | nil => simp [bothWays]
  | cons b bs ih =>
    rw [List.nodup_cons] at hn
    rw [List.mem_cons, not_or] at ha
    have e1 : (bothWays e a (b :: bs)).map Arc.ends = (a, b) :: (b, a) :: (bothWays e a bs).map Arc.ends := rfl
    rw [e1, List.nodup_cons, List.nodup_cons]
    refine ⟨?_, ?_, ih hn.2 ha.2⟩
    · rw [List.mem_cons, not_or, List.mem_map]
      refine ⟨by simp [ha.1], ?_⟩
      rintro ⟨r, hr, he⟩
      obtain ⟨-, h⟩ := mem_bothWays.1 hr
      have ho : r.origin = a := congrArg Prod.fst he
      have hd : r.dest = b := congrArg Prod.snd he
      rcases h with ⟨_, h⟩ | ⟨h, _⟩
      · exact hn.1 (hd ▸ h)
      · exact ha.1 (h.symm.trans hd)
    · rw [List.mem_map]
      rintro ⟨r, hr, he⟩
      obtain ⟨-, h⟩ := mem_bothWays.1 hr
      have ho : r.origin = b := congrArg Prod.fst he
      have hd : r.dest = a := congrArg Prod.snd he
      rcases h with ⟨h, _⟩ | ⟨_, h⟩
      · exact ha.1 (h.symm.trans ho)
      · exact hn.1 (ho ▸ h)

theorem nodup_innerArcs {ns : List String} (e : α) (hn : ns.Nodup) : ((innerArcs e ns).map Arc.ends).Nodup := by
  induction ns with
  | nil => simp [innerArcs]
  | cons a as ih =>
    rw [List.nodup_cons] at hn
    unfold innerArcs
    rw [List.map_append, List.nodup_append]
    refine ⟨nodup_bothWays e hn.2 hn.1, ih hn.2, ?_⟩
    intro p hp q hq hpq
    subst hpq
    obtain ⟨r, hr, rfl⟩ := List.mem_map.1 hp
    obtain ⟨r', hr', he⟩ := List.mem_map.1 hq
    obtain ⟨-, h1, h2, -⟩ := (mem_innerArcs hn.2).1 hr'
    have ho : r'.origin = r.origin := congrArg Prod.fst he
    have hd : r'.dest = r.dest := congrArg Prod.snd he
    rcases (mem_bothWays.1 hr).2 with ⟨h, _⟩ | ⟨h, _⟩
    · exact hn.1 (by rw [← h, ← ho]; exact h1)
    · exact hn.1 (by rw [← h, ← hd]; exact h2)

/-! ### Relations between features -/

/-- The weight `w` is what the configuration gives for the coefficients `c`. -/
def Weighs (cfg : GenConf α) (s : α) (c : Coef α) (w : α) : Prop :=
  ∃ e v, cfg.evaluation c.pq c.pnq c.npq c.npnq = .ok e ∧ (cfg.threshold <? abs e) = true ∧
    cfg.causality c.pq c.pnq c.npq c.npnq = .ok v ∧ w = s * v ∧ (w =? lit 0) = false

theorem defWeight_adds {cfg : GenConf α} {a b : String} {s : α} {c : Coef α} {g g' : Gen α}
    (ha : a ∈ g.fcm.topology.keys) (hb : b ∈ g.fcm.topology.keys) (h : defWeight cfg a b s c g = (.ok (), g')) :
    ∃ L, Adds g L g' ∧ (∀ r, r ∈ L ↔ ∃ w, r = ⟨b, w, a⟩ ∧ Weighs cfg s c w) ∧ (L.map Arc.ends).Sublist [(a, b)] := by
  unfold defWeight at h
  obtain ⟨e, g1, h1, h⟩ := bind_okP h
  obtain ⟨he, eg⟩ := lift_okP h1; rw [eg] at h
  split at h
  · rename_i ht
    obtain ⟨v, g2, h2, h⟩ := bind_okP h
    obtain ⟨hv, eg⟩ := lift_okP h2; rw [eg] at h
    dsimp only at h
    split at h
    · rename_i hw
      cases h
      refine ⟨[], Adds.refl _, ?_, by simp⟩
      intro r
      simp only [List.not_mem_nil, false_iff]
      rintro ⟨w, -, e', v', he', -, hv', rfl, hw'⟩
      rw [he] at he'; rw [hv] at hv'
      cases hv'
      rw [hw] at hw'; cases hw'
    · rename_i hw
      refine ⟨_, adds_relation ha hb h, ?_, by simp [Arc.ends]⟩
      intro r
      rw [List.mem_singleton]
      constructor
      · rintro rfl
        exact ⟨_, rfl, e, v, he, ht, hv, rfl, by simpa using hw⟩
      · rintro ⟨w, rfl, e', v', he', -, hv', rfl, -⟩
        rw [hv] at hv'; cases hv'
        rfl
  · rename_i ht
    cases h
    refine ⟨[], Adds.refl _, ?_, by simp⟩
    intro r
    simp only [List.not_mem_nil, false_iff]
    rintro ⟨w, -, e', v', he', ht', -⟩
    rw [he] at he'; cases he'
    exact ht ht'

/-- The configuration allows a relation from a concept of `fa` to one of `fb`, whose coefficients are `pq` (and `qp` the
other way). -/
def Goes (cfg : GenConf α) (fa fb : Feature α) (pq qp : Coef α) : Prop :=
  if cfg.double then True
  else if sameGroup fa fb then
    ∃ p q, cfg.causality pq.pq pq.pnq pq.npq pq.npnq = .ok p ∧ cfg.causality qp.pq qp.pnq qp.npq qp.npnq = .ok q ∧
      (abs q <? abs p) = true
  else isTarget fa = false

/-- The relation `r` results from the concepts `pa` of `fa` and `pb` of `fb`. -/
def PairArc (cfg : GenConf α) (fa fb : Feature α) (pa pb : String × List α) (r : Arc α) : Prop :=
  ∃ pq qp, calcCoef pa.2 pb.2 = some (pq, qp) ∧
    ((∃ s w, r = ⟨pb.1, w, pa.1⟩ ∧ relSign cfg pq = .ok s ∧ Goes cfg fa fb pq qp ∧ Weighs cfg s pq w) ∨
     (∃ s w, r = ⟨pa.1, w, pb.1⟩ ∧ relSign cfg qp = .ok s ∧ Goes cfg fb fa qp pq ∧ Weighs cfg s qp w))

theorem sameGroup_comm (f g : Feature α) : sameGroup f g = sameGroup g f := by
  unfold sameGroup
  cases isTarget f <;> cases isTarget g <;> rfl

theorem runIf_adds {b : Bool} {x : PyM (Gen α) Unit} {g g' : Gen α} {P : Arc α → Prop} {u : List (String × String)}
    (hx : x g = (.ok (), g') → ∃ L, Adds g L g' ∧ (∀ r, r ∈ L ↔ P r) ∧ (L.map Arc.ends).Sublist u)
    (h : runIf b x g = (.ok (), g')) :
    ∃ L, Adds g L g' ∧ (∀ r, r ∈ L ↔ b = true ∧ P r) ∧ (L.map Arc.ends).Sublist u := by
  unfold runIf at h
  cases b with
  | true =>
    obtain ⟨L, h1, h2, h3⟩ := hx h
    exact ⟨L, h1, by simpa using h2, h3⟩
  | false =>
    cases h
    exact ⟨[], Adds.refl _, by simp, by simp⟩

theorem pairRelation_adds {cfg : GenConf α} {fa fb : Feature α} {pa pb : String × List α} {g g' : Gen α}
    (ha : pa.1 ∈ g.fcm.topology.keys) (hb : pb.1 ∈ g.fcm.topology.keys)
    (h : pairRelation cfg fa fb pa pb g = (.ok (), g')) :
    ∃ L, Adds g L g' ∧ (∀ r, r ∈ L ↔ PairArc cfg fa fb pa pb r) ∧
      (L.map Arc.ends).Sublist [(pa.1, pb.1), (pb.1, pa.1)] := by
  unfold pairRelation at h
  cases hc : calcCoef pa.2 pb.2 with
  | none => rw [hc] at h; cases h
  | some c =>
    obtain ⟨pq, qp⟩ := c
    rw [hc] at h
    dsimp only at h
    obtain ⟨spq, g1, h1, h⟩ := bind_okP h
    obtain ⟨hs1, eg⟩ := lift_okP h1; rw [eg] at h
    obtain ⟨sqp, g2, h2, h⟩ := bind_okP h
    obtain ⟨hs2, eg⟩ := lift_okP h2; rw [eg] at h
    have shape : ∀ r, PairArc cfg fa fb pa pb r ↔
        (∃ w, r = ⟨pb.1, w, pa.1⟩ ∧ Goes cfg fa fb pq qp ∧ Weighs cfg spq pq w) ∨
        (∃ w, r = ⟨pa.1, w, pb.1⟩ ∧ Goes cfg fb fa qp pq ∧ Weighs cfg sqp qp w) := by
      intro r
      constructor
      · rintro ⟨a, b, e1, ⟨s, w, e4, e2, e5⟩ | ⟨s, w, e4, e3, e5⟩⟩
        · rw [hc] at e1; cases e1
          rw [hs1] at e2; cases e2
          exact .inl ⟨w, e4, e5⟩
        · rw [hc] at e1; cases e1
          rw [hs2] at e3; cases e3
          exact .inr ⟨w, e4, e5⟩
      · rintro (⟨w, e4, e5⟩ | ⟨w, e4, e5⟩)
        · exact ⟨pq, qp, hc, .inl ⟨spq, w, e4, hs1, e5⟩⟩
        · exact ⟨pq, qp, hc, .inr ⟨sqp, w, e4, hs2, e5⟩⟩
    cases hd : cfg.double with
    | true =>
      rw [hd, if_pos rfl] at h
      obtain ⟨_, g3, h3, h⟩ := bind_okP h
      obtain ⟨L1, a1, m1, s1⟩ := defWeight_adds ha hb h3
      obtain ⟨L2, a2, m2, s2⟩ := defWeight_adds (by rw [a1.keys]; exact hb) (by rw [a1.keys]; exact ha) h
      refine ⟨L1 ++ L2, a1.trans a2, ?_, ?_⟩
      · intro r
        rw [shape, List.mem_append, m1, m2]
        simp [Goes, hd]
      · rw [List.map_append]; exact s1.append s2
    | false =>
      rw [hd, if_neg (by decide)] at h
      cases hg : sameGroup fa fb with
      | true =>
        rw [hg, if_pos rfl] at h
        obtain ⟨p, g3, h3, h⟩ := bind_okP h
        obtain ⟨hp, eg⟩ := lift_okP h3; rw [eg] at h
        obtain ⟨q, g4, h4, h⟩ := bind_okP h
        obtain ⟨hq, eg⟩ := lift_okP h4; rw [eg] at h
        obtain ⟨_, g5, h5, h⟩ := bind_okP h
        obtain ⟨L1, a1, m1, s1⟩ := runIf_adds (fun hx => defWeight_adds ha hb hx) h5
        obtain ⟨L2, a2, m2, s2⟩ := runIf_adds
          (fun hx => defWeight_adds (by rw [a1.keys]; exact hb) (by rw [a1.keys]; exact ha) hx) h
        refine ⟨L1 ++ L2, a1.trans a2, ?_, ?_⟩
        · intro r
          rw [shape, List.mem_append, m1, m2]
          have hg' : sameGroup fb fa = true := by rw [sameGroup_comm]; exact hg
          have e1 : Goes cfg fa fb pq qp ↔ (abs q <? abs p) = true := by
            simp only [Goes, hd, hg, if_true, Bool.false_eq_true, if_false]
            constructor
            · rintro ⟨p', q', e1, e2, e3⟩
              rw [hp] at e1; cases e1
              rw [hq] at e2; cases e2
              exact e3
            · exact fun e => ⟨p, q, hp, hq, e⟩
          have e2 : Goes cfg fb fa qp pq ↔ (abs p <? abs q) = true := by
            simp only [Goes, hd, hg', if_true, Bool.false_eq_true, if_false]
            constructor
            · rintro ⟨p', q', e1, e2, e3⟩
              rw [hq] at e1; cases e1
              rw [hp] at e2; cases e2
              exact e3
            · exact fun e => ⟨q, p, hq, hp, e⟩
          rw [e1, e2]
          constructor
          · rintro (⟨x, w, rfl, y⟩ | ⟨x, w, rfl, y⟩)
            · exact .inl ⟨w, rfl, x, y⟩
            · exact .inr ⟨w, rfl, x, y⟩
          · rintro (⟨w, rfl, x, y⟩ | ⟨w, rfl, x, y⟩)
            · exact .inl ⟨x, w, rfl, y⟩
            · exact .inr ⟨x, w, rfl, y⟩
        · rw [List.map_append]; exact s1.append s2
      | false =>
        rw [hg, if_neg (by decide)] at h
        have hg' : sameGroup fb fa = false := by rw [sameGroup_comm]; exact hg
        have e1 : Goes cfg fa fb pq qp ↔ isTarget fa = false := by
          simp [Goes, hd, hg]
        have e2 : Goes cfg fb fa qp pq ↔ isTarget fa = true := by
          simp only [Goes, hd, hg', Bool.false_eq_true, if_false]
          revert hg
          unfold sameGroup
          cases isTarget fa <;> cases isTarget fb <;> simp
        cases ht : isTarget fa with
        | true =>
          rw [ht, if_pos rfl] at h
          obtain ⟨L, a1, m1, s1⟩ := defWeight_adds hb ha h
          refine ⟨L, a1, ?_, s1.trans (List.sublist_cons_self _ _)⟩
          intro r
          rw [shape, m1, e1, e2, ht]
          simp
        | false =>
          rw [ht, if_neg (by decide)] at h
          obtain ⟨L, a1, m1, s1⟩ := defWeight_adds ha hb h
          refine ⟨L, a1, ?_, s1.trans ?_⟩
          · intro r
            rw [shape, m1, e1, e2, ht]
            simp
          · exact List.Sublist.cons_cons _ (List.nil_sublist _)

/-- All ordered pairs between two lists of concepts. -/
def crossPairs (as bs : List String) : List (String × String) :=
  as.flatMap fun a => bs.flatMap fun b => [(a, b), (b, a)]

/-- Concepts of a feature with their rows. -/
def Feature.rows (f : Feature α) : List (String × List α) := f.names.zip f.desc

theorem rows_names {f : Feature α} (h : f.names.length = f.desc.length) : f.rows.map (·.1) = f.names := by
  unfold Feature.rows
  exact List.map_fst_zip (by omega)

theorem mem_names_of_rows {f : Feature α} {p : String × List α} (h : p ∈ f.rows) : p.1 ∈ f.names :=
  (List.of_mem_zip h).1

theorem twoFeat_adds {cfg : GenConf α} {fa fb : Feature α} {g g' : Gen α}
    (ha : ∀ c ∈ fa.names, c ∈ g.fcm.topology.keys) (hb : ∀ c ∈ fb.names, c ∈ g.fcm.topology.keys)
    (la : fa.names.length = fa.desc.length) (lb : fb.names.length = fb.desc.length)
    (h : twoFeat cfg fa fb g = (.ok (), g')) :
    ∃ L, Adds g L g' ∧ (∀ r, r ∈ L ↔ ∃ pa ∈ fa.rows, ∃ pb ∈ fb.rows, PairArc cfg fa fb pa pb r) ∧
      (L.map Arc.ends).Sublist (crossPairs fa.names fb.names) := by
  unfold twoFeat at h
  obtain ⟨Ls, hLs, hA⟩ := forEach_adds (Q := fun pa L => (∀ r, r ∈ L ↔ ∃ pb ∈ fb.rows, PairArc cfg fa fb pa pb r) ∧
    (L.map Arc.ends).Sublist (fb.names.flatMap fun b => [(pa.1, b), (b, pa.1)]))
    (fun pa hpa g1 g2 _ e2 h1 => by
      obtain ⟨Ms, hMs, hB⟩ := forEach_adds (Q := fun pb L => (∀ r, r ∈ L ↔ PairArc cfg fa fb pa pb r) ∧
        (L.map Arc.ends).Sublist [(pa.1, pb.1), (pb.1, pa.1)])
        (fun pb hpb g3 g4 _ e4 h3 => by
          obtain ⟨L, hL, hm, hs⟩ := pairRelation_adds (by rw [e4, e2]; exact ha _ (mem_names_of_rows hpa))
            (by rw [e4, e2]; exact hb _ (mem_names_of_rows hpb)) h3
          exact ⟨L, hL, hm, hs⟩) h1
      refine ⟨Ms.flatten, hB, fun r => ?_, ?_⟩
      · exact mem_flatten_forall₂ hMs (P := fun pb r => PairArc cfg fa fb pa pb r) (fun _ _ L hQ b => hQ.1 b) r
      · have := flatten_sublist (e := Arc.ends) (u := fun pb : String × List α => [(pa.1, pb.1), (pb.1, pa.1)]) hMs
          (fun _ _ L hQ => hQ.2)
        have e : (fb.names.flatMap fun b => [(pa.1, b), (b, pa.1)]) = (fb.names.zip fb.desc).flatMap
            fun pb => [(pa.1, pb.1), (pb.1, pa.1)] := by
          conv_lhs => rw [← rows_names lb]
          rw [List.flatMap_map]
          rfl
        rw [e]; exact this) h
  refine ⟨Ls.flatten, hA, fun r => ?_, ?_⟩
  · exact mem_flatten_forall₂ hLs (P := fun pa r => ∃ pb ∈ fb.rows, PairArc cfg fa fb pa pb r)
      (fun _ _ L hQ b => hQ.1 b) r
  · have := flatten_sublist (e := Arc.ends)
      (u := fun pa : String × List α => fb.names.flatMap fun b => [(pa.1, b), (b, pa.1)]) hLs (fun _ _ L hQ => hQ.2)
    have e : crossPairs fa.names fb.names = (fa.names.zip fa.desc).flatMap
        fun pa => fb.names.flatMap fun b => [(pa.1, b), (b, pa.1)] := by
      unfold crossPairs
      conv_lhs => rw [← rows_names la]
      rw [List.flatMap_map]
      rfl
    rw [e]; exact this

/-- The relation `r` joins the features `fa` and `fb` in the way the configuration asks for. -/
def CrossArc (cfg : GenConf α) (fa fb : Feature α) (r : Arc α) : Prop :=
  (cfg.featuresRelation = true ∨ sameGroup fa fb = false) ∧
    ∃ pa ∈ fa.rows, ∃ pb ∈ fb.rows, PairArc cfg fa fb pa pb r

/-- The generator's features are consistent with its map. -/
def FeatOk (g : Gen α) : Prop :=
  ∀ f F, g.features.get? f = some F → F.names.length = F.desc.length ∧ ∀ c ∈ F.names, c ∈ g.fcm.topology.keys

theorem relateWith_adds {cfg : GenConf α} {feat other : String} {g g' : Gen α} (hk : FeatOk g)
    (h : relateWith cfg feat other g = (.ok (), g')) :
    ∃ L, Adds g L g' ∧ (∀ r, r ∈ L ↔ other ≠ feat ∧ ∃ fa fb, g.features.get? feat = some fa ∧
        g.features.get? other = some fb ∧ CrossArc cfg fa fb r) ∧
      (L.map Arc.ends).Sublist (if other = feat then [] else
        crossPairs (((g.features.get? feat).map (·.names)).getD []) (((g.features.get? other).map (·.names)).getD [])) := by
  unfold relateWith at h
  split at h
  · rename_i he
    cases h
    exact ⟨[], Adds.refl _, by simp [he], by simp⟩
  · rename_i hne
    obtain ⟨g0, g1, h1, h⟩ := bind_okP h
    cases h1
    obtain ⟨fa, g2, h2, h⟩ := bind_okP h
    obtain ⟨hfa, eg⟩ := lift_okP h2; rw [eg] at h
    obtain ⟨fb, g3, h3, h⟩ := bind_okP h
    obtain ⟨hfb, eg⟩ := lift_okP h3; rw [eg] at h
    have hfa : g.features.get? feat = some fa := by
      cases hx : g.features.get? feat with
      | none => rw [hx] at hfa; cases hfa
      | some y => rw [hx] at hfa; cases hfa; rfl
    have hfb : g.features.get? other = some fb := by
      cases hx : g.features.get? other with
      | none => rw [hx] at hfb; cases hfb
      | some y => rw [hx] at hfb; cases hfb; rfl
    have run : ∀ g', twoFeat cfg fa fb g = (.ok (), g') → (cfg.featuresRelation = true ∨ sameGroup fa fb = false) →
        ∃ L, Adds g L g' ∧ (∀ r, r ∈ L ↔ other ≠ feat ∧ ∃ fa fb, g.features.get? feat = some fa ∧
        g.features.get? other = some fb ∧ CrossArc cfg fa fb r) ∧
      (L.map Arc.ends).Sublist (if other = feat then [] else
        crossPairs (((g.features.get? feat).map (·.names)).getD []) (((g.features.get? other).map (·.names)).getD [])) := by
      intro g' h hcond
      obtain ⟨L, hA, hm, hs⟩ := twoFeat_adds (hk _ _ hfa).2 (hk _ _ hfb).2 (hk _ _ hfa).1 (hk _ _ hfb).1 h
      refine ⟨L, hA, ?_, ?_⟩
      · intro r
        rw [hm]
        constructor
        · intro hr; exact ⟨hne, fa, fb, hfa, hfb, hcond, hr⟩
        · rintro ⟨-, fa', fb', e1, e2, -, hr⟩
          rw [hfa] at e1; cases e1
          rw [hfb] at e2; cases e2
          exact hr
      · rw [if_neg hne, hfa, hfb]; exact hs
    split at h
    · rename_i hc
      exact run g' h (.inl hc)
    · rename_i hc
      split at h
      · rename_i hg
        cases h
        refine ⟨[], Adds.refl _, ?_, by simp⟩
        intro r
        simp only [List.not_mem_nil, false_iff]
        rintro ⟨-, fa', fb', e1, e2, hx, -⟩
        rw [hfa] at e1; cases e1
        rw [hfb] at e2; cases e2
        rcases hx with hx | hx
        · exact hc hx
        · rw [hg] at hx; cases hx
      · rename_i hg
        exact run g' h (.inr (by simpa using hg))

end PyFCM
