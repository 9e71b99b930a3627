import Verif.Props.Acyclic
import Verif.Props.IterReturns
/-
C124: merging concepts that behave alike.
-/
namespace PyFCM
open Arith Spec

section
variable {α : Type} [Arith α]

/-! ### C124: a map and the smaller map that has one concept for each group of like concepts run alike -/

/-- Exact arithmetic in which multiplication distributes over addition. -/
class Distributes (α : Type) [Arith α] : Prop extends Exact α where
  mul_add : ∀ a b c : α, a * (b + c) = a * b + a * c

instance : Distributes ℝ := ⟨_root_.mul_add⟩
instance : Distributes ℚ := ⟨_root_.mul_add⟩

/-- The sum of the weights of all relations into `c` from active concepts of the group `D`; `h` tells the group. -/
def Spec.groupPull (N : Net α) (h : String → String) (D c : String) : α :=
  total (N.rels.filterMap fun r =>
    if r.dest = c ∧ h r.origin = D ∧ (N.concept r.origin).any (fun o => o.active) = true then some r.weight else none)

/-- `h` sends the concepts `cs` of `N` onto the concepts `ds` of `M`, each to one that works in the same way and is
pulled by every group as strongly. -/
structure Spec.Merges (N M : Net α) (cs ds : List String) (h : String → String) : Prop where
  into : ∀ c ∈ cs, h c ∈ ds
  onto : ∀ D ∈ ds, ∃ c ∈ cs, h c = D
  alike : ∀ c ∈ cs, ∃ a b, N.concept c = some a ∧ M.concept (h c) = some b ∧ a.rescale = b.rescale ∧ a.memory = b.memory ∧
    a.divisor = b.divisor ∧ a.act = b.act
  weights : ∀ c ∈ cs, ∀ D ∈ ds, groupPull N h D c = groupPull M id D (h c)

/-- The settings that decide how long a run is and which value is final. -/
structure SameRules (m k : FCM α) : Prop where
  maxIter : m.maxIter = k.maxIter
  stop : m.stopAtStabilize = k.stopAtStabilize
  diff : m.stabilityDiff = k.stabilityDiff
  extra : m.extraSteps = k.extraSteps
  decision : m.decisionName = k.decisionName

/-! ### Sums -/

theorem total_bump [Exact α] {Ds : List String} (hn : Ds.Nodup) {D0 : String} (h0 : D0 ∈ Ds) {f g : String → α} {x : α}
    (h1 : f D0 = x + g D0) (h2 : ∀ D, D ≠ D0 → f D = g D) : total (Ds.map f) = x + total (Ds.map g) := by
  induction Ds with
  | nil => cases h0
  | cons D Ds ih =>
    rw [List.map_cons, List.map_cons, total_cons, total_cons]
    rw [List.nodup_cons] at hn
    by_cases hD : D = D0
    · subst hD
      have : Ds.map f = Ds.map g := List.map_congr_left fun E hE => h2 E fun e => hn.1 (e ▸ hE)
      rw [h1, this, Exact.add_assoc]
    · have hm : D0 ∈ Ds := by
        rcases List.mem_cons.1 h0 with e | e
        · exact absurd e.symm hD
        · exact e
      rw [ih hn.2 hm, h2 D hD, ← Exact.add_assoc, Exact.add_comm (g D) x, Exact.add_assoc]

theorem total_zero [Exact α] {Ds : List String} {f : String → α} (h : ∀ D, f D = lit 0) : total (Ds.map f) = lit 0 := by
  induction Ds with
  | nil => rfl
  | cons D Ds ih => rw [List.map_cons, total_cons, ih, h D, Exact.zero_add]

/-- The input of a concept, group by group. -/
theorem total_groups [Distributes α] {N : Net α} {h : String → String} {Ds : List String} (hn : Ds.Nodup) {A S : String → α}
    {c : String} (L : List (Rel α)) (hL : ∀ r ∈ L, h r.origin ∈ Ds)
    (hS : ∀ r ∈ L, ∀ o, N.concept r.origin = some o → source o (A r.origin) = S (h r.origin)) :
    total (L.filterMap (along N A c)) = total (Ds.map fun D => S D * total (L.filterMap fun r =>
      if r.dest = c ∧ h r.origin = D ∧ (N.concept r.origin).any (fun o => o.active) = true then some r.weight else none)) := by
  induction L with
  | nil => exact (total_zero fun D => Exact.mul_zero (S D)).symm
  | cons r L ih =>
    have ih := ih (fun r hr => hL r (.tail _ hr)) (fun r hr => hS r (.tail _ hr))
    have skip : (¬ (r.dest = c ∧ (N.concept r.origin).any (fun o => o.active) = true)) →
        (∀ D, (if r.dest = c ∧ h r.origin = D ∧ (N.concept r.origin).any (fun o => o.active) = true then some r.weight
          else none) = none) ∧ along N A c r = none := by
      intro hno
      refine ⟨fun D => if_neg fun ⟨a, _, b⟩ => hno ⟨a, b⟩, ?_⟩
      unfold along
      split
      · rename_i hd
        cases ho : N.concept r.origin with
        | none => rfl
        | some o =>
          simp only
          rw [if_neg fun ha => hno ⟨hd, by rw [ho]; exact ha⟩]
      · rfl
    by_cases hyes : r.dest = c ∧ (N.concept r.origin).any (fun o => o.active) = true
    · obtain ⟨o, ho, ha⟩ : ∃ o, N.concept r.origin = some o ∧ o.active = true := by
        cases ho : N.concept r.origin with
        | none => rw [ho] at hyes; exact absurd hyes.2 (by simp)
        | some o => rw [ho] at hyes; exact ⟨o, rfl, hyes.2⟩
      have e1 : along N A c r = some (S (h r.origin) * r.weight) := by
        unfold along
        rw [if_pos hyes.1, ho]
        simp only
        rw [if_pos ha, hS r (.head _) o ho]
      rw [List.filterMap_cons, e1]
      simp only
      rw [total_cons, ih]
      refine (total_bump hn (hL r (.head _)) ?_ fun D hD => ?_).symm
      · rw [List.filterMap_cons, if_pos ⟨hyes.1, rfl, hyes.2⟩]
        simp only
        rw [total_cons, Distributes.mul_add]
      · rw [List.filterMap_cons, if_neg fun ⟨_, b, _⟩ => hD b.symm]
    · obtain ⟨e1, e2⟩ := skip hyes
      rw [List.filterMap_cons, e2]
      simp only
      rw [ih]
      congr 1
      refine List.map_congr_left fun D _ => ?_
      rw [List.filterMap_cons, e1 D]

/-! ### Networks -/

/-- What a concept of the smaller map contributes. -/
def emits (M : Net α) (B : String → α) (D : String) : α :=
  match M.concept D with
  | some b => source b (B D)
  | none => lit 0

theorem lump_next [Distributes α] {N M : Net α} {cs ds : List String} {h : String → String} (hm : Merges N M cs ds h)
    (hds : ds.Nodup) (hN : ∀ r ∈ N.rels, r.origin ∈ cs) (hM : ∀ r ∈ M.rels, r.origin ∈ ds) {A B : String → α}
    (hAB : ∀ c ∈ cs, A c = B (h c)) {c : String} (hc : c ∈ cs) : next N A c = next M B (h c) := by
  have hin : total (inputs N A c) = total (inputs M B (h c)) := by
    unfold inputs
    rw [total_groups (h := h) (S := emits M B) hds N.rels (fun r hr => hm.into _ (hN r hr)) (fun r hr o ho => ?_),
      total_groups (h := id) (S := emits M B) hds M.rels hM (fun r hr o ho => ?_)]
    · congr 1
      refine List.map_congr_left fun D hD => ?_
      have := hm.weights c hc D hD
      unfold groupPull at this
      rw [this]
    · show _ = emits M B r.origin
      unfold emits
      rw [ho]
    · obtain ⟨a, b, h1, h2, h3, -⟩ := hm.alike _ (hN r hr)
      rw [ho] at h1
      cases h1
      unfold emits
      rw [h2]
      simp only
      unfold source
      rw [h3, hAB _ (hN r hr)]
  obtain ⟨a, b, h1, h2, h3, h4, h5, h6⟩ := hm.alike c hc
  unfold next
  rw [h1, h2, hin, Option.map_some, Option.map_some]
  unfold source
  rw [h3, h4, h5, h6, hAB c hc]

/-- Runs from matching starts match. -/
theorem lump_run [Distributes α] {N M : Net α} {cs ds : List String} {h : String → String} (hm : Merges N M cs ds h)
    (hds : ds.Nodup) (hN : ∀ r ∈ N.rels, r.origin ∈ cs) (hM : ∀ r ∈ M.rels, r.origin ∈ ds) {f g : String → List α} {k l : Nat}
    (hf : IsRun N cs f k) (hg : IsRun M ds g l) (h0 : ∀ c ∈ cs, at' f 0 c = at' g 0 (h c)) :
    ∀ t, t < k → t < l → ∀ c ∈ cs, at' f t c = at' g t (h c) := by
  intro t
  induction t with
  | zero => exact fun _ _ => h0
  | succ t ih =>
    intro h1 h2 c hc
    have e1 := (hf c hc).2 t h1
    have e2 := (hg _ (hm.into c hc)).2 t h2
    rw [lump_next hm hds hN hM (ih (by omega) (by omega)) hc, e2] at e1
    exact (Except.ok.inj (Option.some.inj e1)).symm

theorem lump_quiet {N M : Net α} {cs ds : List String} {h : String → String} (hm : Merges N M cs ds h)
    {f g : String → List α} {s : Nat} (he : ∀ t, t + 1 ≤ s → ∀ c ∈ cs, at' f t c = at' g t (h c)) {mi : Int} {st : Bool} {d : α} :
    Quiet f cs mi st d s ↔ Quiet g ds mi st d s := by
  unfold Quiet Calm
  refine or_congr Iff.rfl (and_congr Iff.rfl ⟨fun ⟨a, b⟩ => ⟨a, fun D hD => ?_⟩, fun ⟨a, b⟩ => ⟨a, fun c hc => ?_⟩⟩)
  · obtain ⟨c, hc, rfl⟩ := hm.onto D hD
    rw [← he _ (by omega) c hc, ← he _ (by omega) c hc]
    exact b c hc
  · rw [he _ (by omega) c hc, he _ (by omega) c hc]
    exact b _ (hm.into c hc)

theorem stopsAt_congr {q q' : Nat → Prop} {w l : Nat} (h : ∀ s, s < l → (q s ↔ q' s)) (hs : StopsAt q w l) : StopsAt q' w l := by
  refine ⟨hs.above, fun s a b => (h s b).1 (hs.window s a b), fun k a b => ?_⟩
  obtain ⟨s, h1, h2, h3⟩ := hs.least k a b
  exact ⟨s, h1, h2, fun hq => h3 ((h s (by omega)).2 hq)⟩

/-! ### Maps -/

/-- C124: the larger map returns exactly if the smaller one does. -/
theorem C124_returns [Distributes α] {m k : FCM α} (hm : CleanReachable m) (hk : CleanReachable k) (dm : m.debug = true)
    (dk : k.debug = true) {h : String → String} (hh : Merges m.net k.net m.topology.keys k.topology.keys h) (hr : SameRules m k)
    (h0 : ∀ c ∈ m.topology.keys, at' m.traj 0 c = at' k.traj 0 (h c)) :
    (∃ m', FCM.runInference true m = (.ok (), m')) ↔ ∃ k', FCM.runInference true k = (.ok (), k') := by
  have hN := origins hm.reachable
  have hM := origins hk.reachable
  have hds : k.topology.keys.Nodup := hk.clean.inv.tnd
  have hempty : m.topology ≠ [] ↔ k.topology ≠ [] := by
    have e : ∀ d : Dict (Node α), d ≠ [] ↔ ∃ c, c ∈ d.keys := by
      intro d
      cases d with
      | nil => simp [Dict.keys]
      | cons p l => simp [Dict.keys]
    rw [e, e]
    exact ⟨fun ⟨c, hc⟩ => ⟨_, hh.into c hc⟩, fun ⟨D, hD⟩ => by obtain ⟨c, hc, -⟩ := hh.onto D hD; exact ⟨c, hc⟩⟩
  have hshort : ∀ len, TooShort m len ↔ TooShort k len := by
    intro len
    unfold TooShort
    rw [hr.decision, hr.extra, hempty]
  have hends : ∀ {x y : String → List α} {len : Nat},
      (∀ t, t < len → ∀ c ∈ m.topology.keys, at' x t c = at' y t (h c)) → (Ends m x len ↔ Ends k y len) := by
    intro x y len he
    unfold Ends
    rw [hr.maxIter, hr.stop, hr.diff, hr.extra]
    exact ⟨stopsAt_congr fun s hs => lump_quiet hh fun t ht => he t (by omega),
      stopsAt_congr fun s hs => (lump_quiet hh fun t ht => he t (by omega)).symm⟩
  rw [C111_returns hm dm, C111_returns hk dk]
  constructor
  · rintro ⟨x, len, hx, he, hs⟩
    choose! g hg hgh using hh.onto
    have hlen := he.above
    -- concepts of one group have the same values
    have hsame : ∀ t, t < len → ∀ c ∈ m.topology.keys, at' x t c = at' x t (g (h c)) := by
      intro t
      induction t with
      | zero =>
        intro _ c hc
        have hgc := hg _ (hh.into c hc)
        rw [hx.start c hc, hx.start _ hgc, h0 c hc, h0 _ hgc, hgh _ (hh.into c hc)]
      | succ t ih =>
        intro ht c hc
        have hgc := hg _ (hh.into c hc)
        have e1 := (hx.run c hc).2 t ht
        have e2 := (hx.run _ hgc).2 t ht
        have ih' : ∀ c ∈ m.topology.keys, at' x t c = (fun D => at' x t (g D)) (h c) := ih (by omega)
        rw [lump_next hh hds hN hM (B := fun D => at' x t (g D)) ih' hc] at e1
        rw [lump_next hh hds hN hM (B := fun D => at' x t (g D)) ih' hgc, hgh _ (hh.into c hc), e1] at e2
        exact Except.ok.inj (Option.some.inj e2)
    refine ⟨fun D => x (g D), len, ⟨fun D hD => ?_, fun D hD => ⟨(hx.run _ (hg D hD)).1, fun t ht => ?_⟩⟩, ?_, ?_⟩
    · show at' x 0 (g D) = _
      rw [hx.start _ (hg D hD), h0 _ (hg D hD), hgh D hD]
    · have := lump_next hh hds hN hM (A := at' x t) (B := fun D => at' x t (g D)) (hsame t (by omega)) (hg D hD)
      rw [hgh D hD, (hx.run _ (hg D hD)).2 t ht] at this
      exact this.symm
    · exact (hends (y := fun D => x (g D)) hsame).1 he
    · exact fun h => hs ((hshort len).2 h)
  · rintro ⟨y, len, hy, he, hs⟩
    have hat : ∀ t, ∀ c, at' (fun c => y (h c)) t c = at' y t (h c) := fun t c => rfl
    refine ⟨fun c => y (h c), len, ⟨fun c hc => ?_, fun c hc => ⟨(hy.run _ (hh.into c hc)).1, fun t ht => ?_⟩⟩, ?_, ?_⟩
    · rw [hat, hy.start _ (hh.into c hc), h0 c hc]
    · rw [lump_next hh hds hN hM (A := at' (fun c => y (h c)) t) (B := at' y t) (fun d _ => hat t d) hc, hat]
      exact (hy.run _ (hh.into c hc)).2 t ht
    · exact (hends (y := y) fun t _ c _ => hat t c).2 he
    · exact fun h => hs ((hshort len).1 h)

/-- C124: all concepts of a group have the records and the final value of the concept that stands for them. -/
theorem C124_same [Distributes α] {m k m' k' : FCM α} (hm : CleanReachable m) (hk : CleanReachable k) (dm : m.debug = true)
    (dk : k.debug = true) {h : String → String} (hh : Merges m.net k.net m.topology.keys k.topology.keys h) (hr : SameRules m k)
    (h0 : ∀ c ∈ m.topology.keys, at' m.traj 0 c = at' k.traj 0 (h c)) (rm : FCM.runInference true m = (.ok (), m'))
    (rk : FCM.runInference true k = (.ok (), k')) {c : String} (hc : c ∈ m.topology.keys) :
    m'.traj c = k'.traj (h c) ∧ m'.getConceptValue c = k'.getConceptValue (h c) := by
  obtain ⟨len, hi⟩ := run_iter hm.reachable.inv dm rm
  obtain ⟨len', hi'⟩ := run_iter hk.reachable.inv dk rk
  have hN := origins hm.reachable
  have hM := origins hk.reachable
  have hds : k.topology.keys.Nodup := hk.clean.inv.tnd
  have hrun := lump_run hh hds hN hM hi.run hi'.run fun c hc => by
    rw [(hi.init c hc).2, (hi'.init _ (hh.into c hc)).2, h0 c hc]
  have hlen : len = len' := by
    have hs := hi.stops
    rw [hr.maxIter, hr.stop, hr.diff, hr.extra] at hs
    rcases Nat.lt_or_ge len len' with hl | hl
    · exact (stopsAt_congr (fun s hs => lump_quiet hh fun t ht => hrun t (by omega) (by omega)) hs).unique hi'.stops
    · exact hs.unique (stopsAt_congr (fun s hs => (lump_quiet hh fun t ht => hrun t (by omega) (by omega)).symm) hi'.stops)
  subst hlen
  have ht : m'.traj c = k'.traj (h c) := by
    have l1 := (hi.run c hc).1
    have l2 := (hi'.run _ (hh.into c hc)).1
    apply List.ext_getElem (by rw [l1, l2])
    intro i h1 h2
    have := hrun i (by omega) (by omega) c hc
    unfold at' at this
    simpa [List.getD_eq_getElem?_getD, h1, h2] using this
  refine ⟨ht, ?_⟩
  obtain ⟨v, hv, hdv⟩ := C08_final_value hm.reachable rm hc
  obtain ⟨w, hw, hdw⟩ := C08_final_value hk.reachable rk (hh.into c hc)
  rw [ht, hr.decision, hr.extra, hdw] at hdv
  rw [hv, hw, Option.some.inj hdv]

/-- C124: a map that a rearrangement `h` of its concepts leaves as it is: a concept and its counterpart have the same
records and final values. -/
theorem C124_twins [Distributes α] {m m' : FCM α} (hm : CleanReachable m) (dm : m.debug = true)
    {h : String → String} (hh : Merges m.net m.net m.topology.keys m.topology.keys h)
    (h0 : ∀ c ∈ m.topology.keys, at' m.traj 0 c = at' m.traj 0 (h c)) (rm : FCM.runInference true m = (.ok (), m')) {c : String}
    (hc : c ∈ m.topology.keys) : m'.traj c = m'.traj (h c) ∧ m'.getConceptValue c = m'.getConceptValue (h c) :=
  C124_same hm hm dm dm hh ⟨rfl, rfl, rfl, rfl, rfl⟩ h0 rm rm hc

end

/-- C124 for what the vectorised engine records: at the steps that both maps record, the values agree. (That engine compares
sums over all concepts, so the two runs may have different lengths.) -/
theorem C124_vector {m k m' k' : FCM ℝ} (hm : Vectorised m) (hk : Vectorised k)
    {h : String → String} (hh : Merges m.net.vector k.net.vector m.topology.keys k.topology.keys h)
    (h0 : ∀ c ∈ m.topology.keys, at' m.traj 0 c = at' k.traj 0 (h c)) (rm : FCM.runInference true m = (.ok (), m'))
    (rk : FCM.runInference true k = (.ok (), k')) {c : String} (hc : c ∈ m.topology.keys) {t : Nat}
    (h1 : t < (m'.traj c).length) (h2 : t < (k'.traj (h c)).length) : at' m'.traj t c = at' k'.traj t (h c) := by
  obtain ⟨l, hr, hinit⟩ := vec_run hm rm
  obtain ⟨l', hr', hinit'⟩ := vec_run hk rk
  rw [(hr c hc).1] at h1
  rw [(hr' _ (hh.into c hc)).1] at h2
  refine lump_run hh hk.clean.clean.inv.tnd (origins_vector hm.clean.reachable) (origins_vector hk.clean.reachable) hr hr'
    (fun d hd => ?_) t h1 h2 c hc
  rw [hinit d hd (by omega), hinit' _ (hh.into d hd) (by omega), h0 d hd]

/-! ### Examples -/

/-- Concepts with the same function, memory flag and excitation function, and the same fuzzy normaliser, work alike. -/
theorem alike_nodes {α : Type} [Arith α] {m k : FCM α} (hm : CleanReachable m) {c d : String} {n p : Node α}
    (hn : m.topology.get? c = some n) (hp : k.topology.get? d = some p) (h1 : n.fn = p.fn) (h2 : n.useMem = p.useMem)
    (h3 : n.exec = p.exec) (h4 : n.actvSum = p.actvSum ∨ ∀ f, n.fn = some f → f.name ≠ "fuzzy") :
    ∃ a b, m.net.concept c = some a ∧ k.net.concept d = some b ∧ a.rescale = b.rescale ∧ a.memory = b.memory ∧
      a.divisor = b.divisor ∧ a.act = b.act := by
  have hg := (hm.clean.good c n hn).full
  obtain ⟨f, hf⟩ := Option.isSome_iff_exists.1 hg.fn
  obtain ⟨ex, he⟩ := Option.isSome_iff_exists.1 hg.exec
  obtain ⟨um, hu⟩ := Option.isSome_iff_exists.1 hg.useMem
  have ha := concept_node hn
  have hb := concept_node hp
  unfold Node.toSpec at ha hb
  rw [← h1, ← h2, ← h3, he, hu, hf] at hb
  rw [he, hu, hf] at ha
  refine ⟨_, _, ha, hb, rfl, rfl, ?_, rfl⟩
  rcases h4 with h | h
  · simp only [h]
  · simp only [h f hf, if_false]

namespace Ex

def teamOps : List (Op ℚ) :=
  [.addConcept "a" {}, .addConcept "b" { useMemory := some false }, .addConcept "B" { useMemory := some false }, .addConcept "c" {},
   .addConcept "C" { isActive := some false }, .addRelation "a" "b" (1/2), .addRelation "a" "B" (1/4), .addRelation "a" "B" (1/4),
   .addRelation "b" "c" (1/8), .addRelation "B" "c" (1/8), .addRelation "b" "C" (1/4), .addRelation "c" "a" (-1/2),
   .addRelation "C" "a" 1, .initConcept "a" 1 true, .initConcept "c" (1/4) true, .initConcept "C" (1/4) true, .assignMaxIter 12]

/-- Two concepts b and B, each reached from a, and two concepts c and C that listen to them in different ways. -/
def team : FCM ℚ := runOps teamOps sat0

def leadersOps : List (Op ℚ) :=
  [.addConcept "c" {}, .addConcept "a" {}, .addConcept "b" { useMemory := some false }, .addRelation "c" "a" (-1/2),
   .addRelation "a" "b" (1/2), .addRelation "b" "c" (1/4), .initConcept "a" 1 true, .initConcept "c" (1/4) true, .assignMaxIter 12]

/-- One concept for b and B, and one for c and C. -/
def leaders : FCM ℚ := runOps leadersOps sat0

def leader (c : String) : String := if c = "B" then "b" else if c = "C" then "c" else c

theorem team_clean : CleanReachable team := cleanReachable_of (.new sat0_new) teamOps (by decide +kernel)
theorem leaders_clean : CleanReachable leaders := cleanReachable_of (.new sat0_new) leadersOps (by decide +kernel)

theorem team_nodes : team.topology.all (fun q => (leaders.topology.get? (leader q.1)).any fun p =>
    decide (q.2.fn = p.fn ∧ q.2.useMem = p.useMem ∧ q.2.exec = p.exec) && q.2.fn.all (fun f => f.name != "fuzzy")) = true := by
  decide +kernel

theorem team_weights : ∀ c ∈ team.topology.keys, ∀ D ∈ leaders.topology.keys,
    groupPull team.net leader D c = groupPull leaders.net id D (leader c) := by decide +kernel

theorem team_merges : Merges team.net leaders.net team.topology.keys leaders.topology.keys leader where
  into := by decide +kernel
  onto := by decide +kernel
  alike := fun c hc => by
    obtain ⟨n, hn⟩ := Dict.exists_get?_of_mem hc
    have := List.all_eq_true.1 team_nodes _ (Dict.get?_mem hn)
    obtain ⟨p, hp, h⟩ := (Option.any_eq_true _ _).1 this
    simp only [Bool.and_eq_true, decide_eq_true_eq] at h
    obtain ⟨⟨h1, h2, h3⟩, h4⟩ := h
    refine alike_nodes team_clean hn hp h1 h2 h3 (.inr fun f hf => ?_)
    rw [hf] at h4
    simpa using h4
  weights := team_weights

theorem team_rules : SameRules team leaders := ⟨by decide +kernel, by decide +kernel, by decide +kernel, by decide +kernel, by decide +kernel⟩

theorem team_start : ∀ c ∈ team.topology.keys, at' team.traj 0 c = at' leaders.traj 0 (leader c) := by decide +kernel

theorem team_run : FCM.runInference true team = (.ok (), (FCM.runInference true team).2) := run_eq (by decide +kernel)
theorem leaders_run : FCM.runInference true leaders = (.ok (), (FCM.runInference true leaders).2) := run_eq (by decide +kernel)

example := C124_returns team_clean leaders_clean (by decide +kernel) (by decide +kernel) team_merges team_rules team_start

/-- C runs like c of the smaller map. -/
theorem team_same : (FCM.runInference true team).2.traj "C" = (FCM.runInference true leaders).2.traj "c" ∧
    (FCM.runInference true team).2.getConceptValue "C" = (FCM.runInference true leaders).2.getConceptValue "c" :=
  C124_same team_clean leaders_clean (by decide +kernel) (by decide +kernel) team_merges team_rules team_start
    team_run leaders_run (c := "C") (by decide +kernel)

theorem team_traj : (FCM.runInference true team).2.traj "C" =
    [1/4, 1/4, 3/8, 31/64, 37/64, 83/128, 705/1024, 709/1024, 709/1024, 709/1024] := by decide +kernel

def halvesOps (two dbg : Bool) : List (Op ℚ) :=
  [.addConcept "a" { useMemory := some false }, .addRelation "a" "a" (1/2), .initConcept "a" 1 true, .assignMaxIter 40] ++
  (if two then [.addConcept "b" { useMemory := some false }, .addRelation "b" "b" (1/2), .initConcept "b" 1 true] else []) ++
  [.assignDebug dbg]

/-- One or two concepts that halve in every step. -/
def halves (two dbg : Bool) : FCM ℚ := runOps (halvesOps two dbg) sat0

def other (c : String) : String := if c = "a" then "b" else "a"

theorem halves_clean (two dbg : Bool) : CleanReachable (halves two dbg) :=
  cleanReachable_of (.new sat0_new) (halvesOps two dbg) (by cases two <;> cases dbg <;> decide +kernel)

theorem halves_nodes : (halves true true).topology.all (fun q => ((halves true true).topology.get? (other q.1)).any fun p =>
    decide (q.2.fn = p.fn ∧ q.2.useMem = p.useMem ∧ q.2.exec = p.exec) && q.2.fn.all (fun f => f.name != "fuzzy")) = true := by
  decide +kernel

theorem halves_twins : Merges (halves true true).net (halves true true).net (halves true true).topology.keys
    (halves true true).topology.keys other where
  into := by decide +kernel
  onto := by decide +kernel
  alike := fun c hc => by
    obtain ⟨n, hn⟩ := Dict.exists_get?_of_mem hc
    have := List.all_eq_true.1 halves_nodes _ (Dict.get?_mem hn)
    obtain ⟨p, hp, h⟩ := (Option.any_eq_true _ _).1 this
    simp only [Bool.and_eq_true, decide_eq_true_eq] at h
    obtain ⟨⟨h1, h2, h3⟩, h4⟩ := h
    refine alike_nodes (halves_clean true true) hn hp h1 h2 h3 (.inr fun f hf => ?_)
    rw [hf] at h4
    simpa using h4
  weights := by decide +kernel

example := C124_twins (halves_clean true true) (by decide +kernel) halves_twins (by decide +kernel)
  (m' := (FCM.runInference true (halves true true)).2) (run_eq (by decide +kernel)) (c := "a") (by decide +kernel)

/-- The vectorised engine compares sums of activations: with two concepts the sum moves twice as far, and the run is one
state longer than with one. -/
theorem C124_lengths : (FCM.runInference true (halves true false)).1 = .ok () ∧ (FCM.runInference true (halves false false)).1 = .ok () ∧
    ((FCM.runInference true (halves true false)).2.traj "a").length = 13 ∧
    ((FCM.runInference true (halves false false)).2.traj "a").length = 12 := by decide +kernel

end Ex

set_option maxRecDepth 8000
namespace Ex

noncomputable def forkOps (two : Bool) : List (Op ℝ) :=
  [.addConcept "a" {}, .addConcept "b" {}, .addRelation "a" "b" (1/2)] ++
  (if two then [.addConcept "c" {}, .addRelation "a" "c" (1/4), .addRelation "a" "c" (1/2)] else []) ++
  [.initConcept "a" 1 true, .assignDebug false]

/-- a reaches b, or b and c. -/
noncomputable def fork (two : Bool) : FCM ℝ := runOps (forkOps two) rumor0

theorem fork_clean (two : Bool) : CleanReachable (fork two) := by
  cases two
  · exact cleanReachable_of (.new rumor0_new) (forkOps false) rfl
  · exact cleanReachable_of (.new rumor0_new) (forkOps true) rfl

theorem fork_keys : (fork true).topology.keys = ["a", "b", "c"] := rfl
theorem fork_keys1 : (fork false).topology.keys = ["a", "b"] := rfl
theorem fork_arcs : (fork true).arcList = [⟨"b", 1/2, "a"⟩, ⟨"c", 1/4, "a"⟩, ⟨"c", 1/2, "a"⟩] := rfl
theorem fork_arcs1 : (fork false).arcList = [⟨"b", 1/2, "a"⟩] := rfl

theorem fork_node (two : Bool) {c : String} {n : Node ℝ} (h : (fork two).topology.get? c = some n) :
    n.fn = some ⟨.bistate, "biestate", []⟩ ∧ n.exec = some (.kosko, "KOSKO") ∧ n.useMem = some true := by
  have hk : c ∈ (fork two).topology.keys := Dict.mem_keys_of_get? h
  have key : ∀ c ∈ (fork two).topology.keys, ∃ o, (fork two).topology.get? c = some o ∧
      o.fn = some ⟨.bistate, "biestate", []⟩ ∧ o.exec = some (.kosko, "KOSKO") ∧ o.useMem = some true := by
    cases two
    · rw [fork_keys1]
      intro c hc
      simp only [List.mem_cons, List.not_mem_nil, or_false] at hc
      rcases hc with rfl | rfl <;> exact ⟨_, rfl, rfl, rfl, rfl⟩
    · rw [fork_keys]
      intro c hc
      simp only [List.mem_cons, List.not_mem_nil, or_false] at hc
      rcases hc with rfl | rfl | rfl <;> exact ⟨_, rfl, rfl, rfl, rfl⟩
  obtain ⟨o, h1, h2⟩ := key c hk
  rw [h] at h1
  cases h1
  exact h2

theorem fork_start (two : Bool) : ∀ c ∈ (fork two).topology.keys, at' (fork two).traj 0 c = if c = "a" then 1 else 0 := by
  cases two
  · rw [fork_keys1]
    intro c hc
    have ha : at' (fork false).traj 0 "a" = 1 := rfl
    have hz : at' (fork false).traj 0 "b" = lit 0 := rfl
    simp only [List.mem_cons, List.not_mem_nil, or_false] at hc
    rcases hc with rfl | rfl
    · rw [ha]; simp
    · rw [hz]; simp
  · rw [fork_keys]
    intro c hc
    have ha : at' (fork true).traj 0 "a" = 1 := rfl
    have hb : at' (fork true).traj 0 "b" = lit 0 := rfl
    have hz : at' (fork true).traj 0 "c" = lit 0 := rfl
    simp only [List.mem_cons, List.not_mem_nil, or_false] at hc
    rcases hc with rfl | rfl | rfl
    · rw [ha]; simp
    · rw [hb]; simp
    · rw [hz]; simp

theorem fork_vec (two : Bool) : Vectorised (fork two) where
  clean := fork_clean two
  off := by cases two <;> rfl
  nonempty := by
    intro h
    have h0 : (fork two).topology.keys = [] := by rw [h]; rfl
    cases two
    · rw [fork_keys1] at h0; cases h0
    · rw [fork_keys] at h0; cases h0
  args := fun c n f hn hf => by
    rw [(fork_node two hn).1] at hf
    cases hf
    exact ⟨rfl, trivial⟩
  start := fun c hc => by
    rw [fork_start two c hc]
    split <;> norm_num

def tine (c : String) : String := if c = "a" then "a" else "b"

theorem fork_concept (two : Bool) {c : String} (hc : c ∈ (fork two).topology.keys) : (fork two).net.vector.concept c =
    some ⟨true, false, true, none, fun x => callActv .bistate x []⟩ := by
  obtain ⟨n, hn⟩ := Dict.exists_get?_of_mem hc
  obtain ⟨h1, h2, h3⟩ := fork_node two hn
  have hk := concept_node hn
  rw [toSpec_of h1 h2 h3] at hk
  refine (congrArg (Option.map Concept.vector) hk).trans ?_
  simp [Concept.vector]

theorem fork_rels : (fork true).net.vector.rels = [⟨"a", "b", 1/2⟩, ⟨"a", "c", 1/2⟩] := by
  rw [show (fork true).net.vector.rels = latest ((fork true).arcList.map Arc.toSpec) from rfl, fork_arcs]
  simp [latest, Arc.toSpec]

theorem fork_rels1 : (fork false).net.vector.rels = [⟨"a", "b", 1/2⟩] := by
  rw [show (fork false).net.vector.rels = latest ((fork false).arcList.map Arc.toSpec) from rfl, fork_arcs1]
  simp [latest, Arc.toSpec]

theorem fork_merges : Merges (fork true).net.vector (fork false).net.vector (fork true).topology.keys
    (fork false).topology.keys tine where
  into := by rw [fork_keys, fork_keys1]; decide
  onto := by rw [fork_keys, fork_keys1]; decide
  alike := fun c hc => by
    have hc' : tine c ∈ (fork false).topology.keys := by
      rw [fork_keys] at hc
      rw [fork_keys1]
      revert c
      decide
    exact ⟨_, _, fork_concept true hc, fork_concept false hc', rfl, rfl, rfl, rfl⟩
  weights := by
    have ha := fork_concept true (c := "a") (by rw [fork_keys]; simp)
    have ha1 := fork_concept false (c := "a") (by rw [fork_keys1]; simp)
    rw [fork_keys, fork_keys1]
    intro c hc D hD
    unfold groupPull
    rw [fork_rels, fork_rels1]
    simp only [List.mem_cons, List.not_mem_nil, or_false] at hc hD
    rcases hc with rfl | rfl | rfl <;> rcases hD with rfl | rfl <;> simp [ha, ha1, tine, total]

/-- b and c of the larger map have what b of the smaller map has, as long as both go on. -/
example {m' k' : FCM ℝ} (rm : FCM.runInference true (fork true) = (.ok (), m'))
    (rk : FCM.runInference true (fork false) = (.ok (), k')) {t : Nat} (h1 : t < (m'.traj "c").length)
    (h2 : t < (k'.traj "b").length) : at' m'.traj t "c" = at' k'.traj t "b" :=
  C124_vector (fork_vec true) (fork_vec false) fork_merges (fun c hc => by
    rw [fork_start true c hc, fork_start false _ (fork_merges.into c hc)]
    rw [fork_keys] at hc
    simp only [List.mem_cons, List.not_mem_nil, or_false] at hc
    rcases hc with rfl | rfl | rfl <;> simp [tine]) rm rk (by rw [fork_keys]; simp) h1 h2

end Ex

end PyFCM
