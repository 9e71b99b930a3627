import Verif.Lemmas.Beside
import Verif.Props.Influence
import Verif.Props.Estimator
/-
Learning into a map that has concepts already (C100); `reset` of a generator (C101).
-/
namespace PyFCM
open Arith Spec

set_option linter.unusedSectionVars false

variable {α : Type} [Arith α]

/-- The map `m` without its concepts. -/
def Spec.blank (m : FCM α) : FCM α := { m with topology := [], arcList := [], execution := [] }

/-- No concept of `m` has the name of a value of one of the columns. -/
def Spec.Unlike (cfg : GenConf α) (cols : List (String × Column α)) (m : FCM α) : Prop :=
  ∀ p ∈ cols, ∀ v, v ++ cfg.separator ++ p.1 ∉ m.topology.keys

/-! ### C100 -/

/-- C100: `build_fcm(fcm=m)` learns beside the concepts of `m` what it would learn into the same map without concepts; it
raises if and only if it would raise there. -/
theorem C100_extends_partial {cfg : GenConf α} {x : Ext α} {ts : List String} {cols : List (String × Column α)} {m : FCM α}
    {g : Gen α} (hm : Reachable m) (hd : Unlike cfg cols m) (hg : g.features = []) :
    (Gen.build cfg x ts cols (some m) g).1 = (Gen.build cfg x ts cols (some (blank m)) g).1 ∧
    (Gen.build cfg x ts cols (some m) g).2.features = (Gen.build cfg x ts cols (some (blank m)) g).2.features ∧
    (Gen.build cfg x ts cols (some m) g).2.fcm =
      { (Gen.build cfg x ts cols (some (blank m)) g).2.fcm with
        topology := m.topology ++ (Gen.build cfg x ts cols (some (blank m)) g).2.fcm.topology
        arcList := m.arcList ++ (Gen.build cfg x ts cols (some (blank m)) g).2.fcm.arcList
        execution := m.execution ++ (Gen.build cfg x ts cols (some (blank m)) g).2.fcm.execution } := by
  have h := (buildFcm_beside (o := m) x ts (fun p hp v => ⟨hd p hp v, fun h => hd p hp v (hm.inv.sub _ h)⟩)
    { g with fcm := blank m } (by intro p hp; rw [hg] at hp; cases hp)).1
  have e : Gen.beside m { g with fcm := blank m } = { g with fcm := m } := by
    simp [Gen.beside, FCM.beside, blank]
  rw [e] at h
  simp only [Gen.build, h]
  exact ⟨trivial, rfl, rfl⟩

theorem reachable_ops : OpPres (Reachable : FCM α → Prop) := ⟨fun o _ h => h.after o⟩

theorem reachable_build {cfg : GenConf α} {x : Ext α} {ts : List String} {cols : List (String × Column α)} {m : FCM α}
    (g : Gen α) (hm : Reachable m) : Reachable (Gen.build cfg x ts cols (some m) g).2.fcm :=
  buildFcm_pres reachable_ops.gen cfg x ts cols { g with fcm := m } hm

theorem inv_build {cfg : GenConf α} {x : Ext α} {ts : List String} {cols : List (String × Column α)} {m : FCM α}
    (g : Gen α) (hm : Inv m) : Inv (Gen.build cfg x ts cols (some m) g).2.fcm :=
  buildFcm_pres inv_ops.gen cfg x ts cols { g with fcm := m } hm

theorem blank_inv {m : FCM α} (h : Inv m) : Inv (blank m) :=
  ⟨by simp [blank, Dict.keys], by simp [blank, Dict.keys], by simp [blank, Dict.keys], by simp [blank],
    fun c n hn => (nomatch hn), h.dflt, h.mapFn, h.dec, h.extra⟩

/-- C100: the concepts of `m`, their trajectories, and the relations between them are as before, and no relation between
an old and a new concept is added, whether or not learning raises. -/
theorem C100_keeps {cfg : GenConf α} {x : Ext α} {ts : List String} {cols : List (String × Column α)} {m k : FCM α}
    {g : Gen α} (hm : Reachable m) (hd : Unlike cfg cols m) (hg : g.features = [])
    (hk : k = (Gen.build cfg x ts cols (some m) g).2.fcm) :
    (∀ c ∈ m.topology.keys, k.topology.get? c = m.topology.get? c ∧ k.traj c = m.traj c) ∧
    (∀ c ∈ m.topology.keys, k.arcList.filter (fun r => r.dest == c) = m.arcList.filter (fun r => r.dest == c)) ∧
    ∀ r ∈ k.arcList, r ∈ m.arcList ∨ r.origin ∉ m.topology.keys ∧ r.dest ∉ m.topology.keys := by
  obtain ⟨-, -, h3⟩ := C100_extends_partial (x := x) (ts := ts) hm hd hg
  rw [← hk] at h3
  have hi : Inv (Gen.build cfg x ts cols (some (blank m)) g).2.fcm := inv_build g (blank_inv hm.inv)
  have hki : Inv k := hk ▸ (reachable_build g hm).inv
  generalize (Gen.build cfg x ts cols (some (blank m)) g).2.fcm = b at h3 hi
  have ht : k.topology = m.topology ++ b.topology := by rw [h3]
  have ha : k.arcList = m.arcList ++ b.arcList := by rw [h3]
  have hx : k.execution = m.execution ++ b.execution := by rw [h3]
  have hdis : ∀ c ∈ b.topology.keys, c ∉ m.topology.keys := by
    intro c hc hc'
    have := hki.tnd
    rw [ht] at this
    unfold Dict.keys at this hc hc'
    rw [List.map_append, List.nodup_append] at this
    exact this.2.2 c hc' c hc rfl
  have hold : ∀ {β : Type} (d e : Dict β) (c : String), (c ∈ d.keys ∨ c ∉ e.keys) → Dict.get? (d ++ e) c = d.get? c := by
    intro β d e c h
    induction d with
    | nil =>
      rcases h with h | h
      · cases h
      · exact (Dict.get?_eq_none_iff _ _).2 h
    | cons p d ih =>
      rw [List.cons_append, Dict.get?_cons, Dict.get?_cons]
      split
      · rfl
      · rename_i hne
        refine ih (h.imp (fun h => ?_) id)
        rcases List.mem_cons.1 h with h | h
        · exact absurd h.symm hne
        · exact h
  refine ⟨fun c hc => ⟨?_, ?_⟩, fun c hc => ?_, fun r hr => ?_⟩
  · rw [ht]; exact hold _ _ c (.inl hc)
  · unfold FCM.traj
    rw [hx, hold _ _ c (.inr fun h => hdis c (hi.sub c h) hc)]
  · rw [ha, List.filter_append, (List.filter_eq_nil_iff (l := b.arcList)).2 ?_, List.append_nil]
    intro r hr e
    rw [beq_iff_eq] at e
    exact hdis _ (hi.ends r hr).2 (e ▸ hc)
  · rw [ha] at hr
    rcases List.mem_append.1 hr with hr | hr
    · exact .inl hr
    · exact .inr ⟨hdis _ (hi.ends r hr).1, hdis _ (hi.ends r hr).2⟩

/-- C100: an inference with `debug` on and `stop_at_stabilize=False` gives the concepts of `m` the trajectories and the
values they have without what was learned. -/
theorem C100_runs {cfg : GenConf α} {x : Ext α} {ts : List String} {cols : List (String × Column α)} {m k m' k' : FCM α}
    {g : Gen α} (hm : Reachable m) (hd : Unlike cfg cols m) (hg : g.features = [])
    (hk : k = (Gen.build cfg x ts cols (some m) g).2.fcm) (dm : m.debug = true) (sm : m.stopAtStabilize = false)
    (rm : FCM.runInference true m = (.ok (), m')) (rk : FCM.runInference true k = (.ok (), k')) {c : String}
    (hc : c ∈ m.topology.keys) : k'.traj c = m'.traj c ∧ k'.getConceptValue c = m'.getConceptValue c := by
  obtain ⟨h1, h2, h3⟩ := C100_keeps (x := x) (ts := ts) hm hd hg hk
  have hs : k.bare = m.bare := by
    rw [hk]
    exact buildFcm_pres (bare_gen m) cfg x ts cols { g with fcm := m } rfl
  have hr : Reachable k := hk ▸ reachable_build g hm
  have hS : Upstream m.net (· ∈ m.topology.keys) := by
    intro r hr _
    obtain ⟨a, ha, rfl⟩ := List.mem_map.1 hr
    exact (hm.inv.ends a ha).1
  have hA : AgreeOn (· ∈ m.topology.keys) m.net k.net := by
    refine ⟨fun c hc => ?_, fun c hc => ?_⟩
    · simp only [FCM.net, (h1 c hc).1]
    · have := congrArg (List.map Arc.toSpec) (h2 c hc).symm
      simp only [FCM.net, List.filter_map]
      exact this
  refine C76_final hm hr dm ((congrArg FCM.debug hs).trans dm) rm rk hS hA
    (fun c hc => ⟨hc, ?_⟩) (fun c hc => ?_) sm ((congrArg FCM.stopAtStabilize hs).trans sm)
    (show k.bare.extraSteps = m.bare.extraSteps by rw [hs]) (show k.bare.maxIter = m.bare.maxIter by rw [hs]) (show k.bare.decisionName = m.bare.decisionName by rw [hs]) hc
  · obtain ⟨n, hn⟩ := Dict.exists_get?_of_mem hc
    exact Dict.mem_keys_of_get? ((h1 c hc).1.trans hn)
  · unfold at'
    rw [(h1 c hc).2]

/-- C100 in full: learning into a map leaves the concepts it has alone. -/
def C100_full (α : Type) [Arith α] : Prop :=
  ∀ (cfg : GenConf α) (x : Ext α) (ts : List String) (cols : List (String × Column α)) (m : FCM α) (g : Gen α),
    Reachable m → g.features = [] → ∀ c ∈ m.topology.keys,
      (Gen.build cfg x ts cols (some m) g).2.fcm.topology.get? c = m.topology.get? c

/-- A map of the client that records its runs. -/
def Ex.client : FCM ℚ := runOps (Ex.ops1 ++ [.assignDebug true, .assignStop false]) Ex.sat0
def Ex.clientGen : Gen ℚ := ⟨[], [], Ex.sat0⟩
/-- What the colours and the classes add to it. -/
def Ex.client2 : FCM ℚ := (Gen.build Ex.conf Ex.ext ["class"] (Ex.xs ++ Ex.ys) (some Ex.client) Ex.clientGen).2.fcm

example : Ex.client2.topology.keys = ["a", "b", "c", "blue___color", "red___color", "no___class", "yes___class"] ∧
    Ex.client2.arcList.length > Ex.client.arcList.length := by decide +kernel

theorem Ex.client_reachable : Reachable Ex.client := Ex.reachable_made _ Ex.sat0_new
theorem Ex.client_unlike : Unlike Ex.conf (Ex.xs ++ Ex.ys) Ex.client := by
  have hk : Ex.client.topology.keys = ["a", "b", "c"] := by decide +kernel
  intro p hp v hv
  rw [hk] at hv
  have h3 : 3 ≤ (v ++ Ex.conf.separator ++ p.1).length := by
    have : Ex.conf.separator.length = 3 := by decide
    rw [String.length_append, String.length_append]
    omega
  simp only [List.mem_cons, List.not_mem_nil, or_false] at hv
  rcases hv with hv | hv | hv <;> rw [hv] at h3 <;> exact absurd h3 (by decide)

example := C100_extends_partial (x := Ex.ext) (ts := ["class"]) Ex.client_reachable Ex.client_unlike (g := Ex.clientGen) rfl
example {m' k' : FCM ℚ} (h1 : FCM.runInference true Ex.client = (.ok (), m'))
    (h2 : FCM.runInference true Ex.client2 = (.ok (), k')) : k'.traj "b" = m'.traj "b" :=
  (C100_runs (x := Ex.ext) (ts := ["class"]) Ex.client_reachable Ex.client_unlike (g := Ex.clientGen) rfl rfl
    (by decide +kernel) (by decide +kernel) h1 h2 (c := "b") (by decide +kernel)).1
example : (FCM.runInference true Ex.client).1.toOption = some () ∧ (FCM.runInference true Ex.client2).1.toOption = some () := by
  decide +kernel

/-- A concept named like a value of a column is replaced, and its relations are lost. -/
def Ex.taken : FCM ℚ := runOps [.addConcept "red___color" {}, .addConcept "z" {}, .addRelation "red___color" "z" 1] Ex.sat0

theorem C100_counterexample : ¬ C100_full ℚ := by
  intro h
  have h := h Ex.conf Ex.ext ["class"] (Ex.xs ++ Ex.ys) Ex.taken Ex.clientGen (Ex.reachable_made _ Ex.sat0_new) rfl
    "red___color" (by decide +kernel)
  have h := congrArg (Option.map fun n : Node ℚ => n.arcs.map (·.1)) h
  revert h
  decide +kernel

/-! ### C101 -/

/-- The life of a generator: created, used to learn (into a new map or into one of the client), the learned map used by
the client, reset.  All calls have returned. -/
inductive Spec.GenLife (cfg : GenConf α) : Gen α → Prop
  | new {fit : Bool} {g : Gen α} : Gen.new fit = .ok g → Spec.GenLife cfg g
  | build {g g' : Gen α} (x : Ext α) (ts : List String) (cols : List (String × Column α)) (given : Option (FCM α)) :
      Spec.GenLife cfg g → (∀ m, given = some m → CleanReachable m) → Gen.build cfg x ts cols given g = (.ok (), g') →
      Spec.GenLife cfg g'
  | use {g : Gen α} {m' : FCM α} (op : Op α) : Spec.GenLife cfg g → op.run g.fcm = (.ok (), m') →
      Spec.GenLife cfg { g with fcm := m' }
  | reset {g g' : Gen α} : Spec.GenLife cfg g → Gen.reset g = (.ok (), g') → Spec.GenLife cfg g'

/-- C101 in full: `reset` makes the generator as good as new and leaves the map that was learned as it is. -/
def C101_full (α : Type) [Arith α] : Prop :=
  ∀ (cfg : GenConf α) (g : Gen α), Spec.GenLife cfg g → ∃ g', Gen.reset g = (.ok (), g') ∧ g'.fcm = g.fcm ∧
    ∀ fit g0, Gen.new fit = .ok g0 → ∀ x ts cols given,
      Gen.build cfg x ts cols given g' = Gen.build cfg x ts cols given g0

theorem new_blank {m : FCM α} (h : FCM.new = Except.ok m) : m.topology = [] := by
  unfold FCM.new at h
  split at h
  · cases h
  · split at h
    · cases h
    · rw [← Except.ok.inj h]

theorem genNew_ok {fit : Bool} {g : Gen α} (h : Gen.new fit = .ok g) :
    g.features = [] ∧ g.processed = [] ∧ g.fcm.topology = [] ∧ Inv g.fcm := by
  unfold Gen.new at h
  obtain ⟨p, hp, h1⟩ := exc_bind_ok h
  cases h1
  have hi : Inv p := new_inv hp
  have ht := new_blank hp
  refine ⟨rfl, rfl, ?_, ?_⟩
  · dsimp only; split <;> exact ht
  · dsimp only
    split
    · exact ⟨hi.tnd, hi.xnd, hi.sub, hi.ends, hi.nodes, hi.dflt, hi.mapFn, hi.dec, hi.extra⟩
    · exact hi

theorem clean_blank {m : FCM α} (h : Inv m) (ht : m.topology = []) : CleanInv m :=
  ⟨h, fun c n hn => (by rw [ht] at hn; cases hn), fun c hc => (by rw [ht] at hc; cases hc)⟩

theorem reset_run (g : Gen α) : Gen.reset g = ((FCM.clearAll g.fcm).1, ⟨[], [], (FCM.clearAll g.fcm).2⟩) := by
  unfold Gen.reset Gen.onFcm
  rfl

theorem Spec.GenLife.clean {cfg : GenConf α} {g : Gen α} (h : Spec.GenLife cfg g) : CleanInv g.fcm := by
  induction h with
  | new h => obtain ⟨-, -, h1, h2⟩ := genNew_ok h; exact clean_blank h2 h1
  | build x ts cols given _ hg hb ih =>
    unfold Gen.build at hb
    cases given with
    | some m => exact buildFcm_clean (hg m rfl).clean hb
    | none =>
      dsimp only at hb
      split at hb
      · cases hb
      · rename_i m hm
        exact buildFcm_clean (g := ⟨_, _, m⟩) (clean_blank (new_inv hm) (new_blank hm)) hb
  | use op _ hop ih => exact Op.clean ih hop
  | reset _ hr ih =>
    rw [reset_run] at hr
    obtain ⟨h1, h2⟩ := Prod.mk.inj hr
    subst h2
    exact Op.clean (op := .clearAll) ih (Prod.ext h1 rfl)

/-- C101: after any such life `reset` returns, and the generator then learns exactly what a new one would. -/
theorem C101_reset_partial {cfg : GenConf α} {g : Gen α} (h : Spec.GenLife cfg g) :
    ∃ g', Gen.reset g = (.ok (), g') ∧ ∀ fit g0, Gen.new fit = .ok g0 → ∀ x ts cols given,
      Gen.build cfg x ts cols given g' = Gen.build cfg x ts cols given g0 := by
  obtain ⟨m1, h1⟩ := reset_success h.clean.exe
  have h2 : FCM.clearAll g.fcm = (.ok (), Spec.blank m1) := by
    unfold FCM.clearAll
    rw [PyM.run_bind, h1]
    rfl
  refine ⟨⟨[], [], Spec.blank m1⟩, by rw [reset_run, h2], ?_⟩
  intro fit g0 h0 x ts cols given
  obtain ⟨f1, f2, -, -⟩ := genNew_ok h0
  unfold Gen.build
  cases given with
  | some m => simp only [f1, f2]
  | none =>
    have hm : ∃ m, (FCM.new : Except Err (FCM α)) = .ok m := ⟨_, rfl⟩
    obtain ⟨m, hm⟩ := hm
    simp only [f1, f2, hm]

/-- C101: the map that was learned keeps its settings but loses all concepts, relations and trajectories. -/
theorem C101_emptied {g g' : Gen α} (h : Gen.reset g = (.ok (), g')) :
    g'.fcm.topology = [] ∧ g'.fcm.arcList = [] ∧ g'.fcm.execution = [] ∧ g'.fcm.bare = g.fcm.bare := by
  rw [reset_run] at h
  obtain ⟨h1, h2⟩ := Prod.mk.inj h
  subst h2
  have hb := clearAll_bare g.fcm _ rfl
  rcases hc : FCM.clearAll g.fcm with ⟨r, m⟩
  rw [hc] at h1 hb
  cases h1
  obtain ⟨a, b, c⟩ := clearAll_ok hc
  exact ⟨a, b, c, hb⟩

/-- A generator that has learned colours and classes. -/
def Ex.genNew : Gen ℚ := (Gen.new true).toOption.getD Ex.clientGen
def Ex.learned : Gen ℚ := (Gen.build Ex.conf Ex.ext ["class"] (Ex.xs ++ Ex.ys) none Ex.genNew).2
theorem Ex.learned_life : Spec.GenLife Ex.conf Ex.learned :=
  .build (g := Ex.genNew) Ex.ext ["class"] (Ex.xs ++ Ex.ys) none (.new (fit := true) rfl) (fun m h => by cases h)
    (Ex.pair_of _ (by decide +kernel))
example := C101_reset_partial Ex.learned_life

/-- Without `reset` a table with another number of rows cannot be learned; with it, it can. -/
example : (Gen.build Ex.conf Ex.ext ["class"] [("size", .strs ["big", "small"])] none Ex.learned).1.toOption = none ∧
    (Gen.build Ex.conf Ex.ext ["class"] [("size", .strs ["big", "small"])] none (Gen.reset Ex.learned).2).1.toOption =
      some () := by decide +kernel

theorem C101_counterexample : ¬ C101_full ℚ := by
  intro h
  obtain ⟨g', h1, h2, -⟩ := h Ex.conf Ex.learned Ex.learned_life
  have h3 := (C101_emptied h1).1
  rw [h2] at h3
  have : Ex.learned.fcm.topology.keys = ["blue___color", "red___color", "no___class", "yes___class"] := by decide +kernel
  rw [h3] at this
  cases this

end PyFCM
