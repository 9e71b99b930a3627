import Verif.Lemmas.VecTop
import Verif.Lemmas.Exact
import Verif.Spec.Vector
/-
One step of the vectorised engine against the recurrence, in exact arithmetic.
-/
namespace PyFCM
open Arith Spec

set_option linter.unusedSectionVars false

variable {α : Type} [Arith α]

/-! ### The matrix product -/

section Dot
variable [Exact α]

theorem dotCol_cons (a : α) (s : List α) (row : List α) (mat : List (List α)) (j : Nat) :
    dotCol (a :: s) (row :: mat) j = a * row.getD j (lit 0) + dotCol s mat j := by
  unfold dotCol
  rw [total_pysum, total_pysum, List.zipWith_cons_cons, total_cons]

theorem dotCol_set {s : List α} {mat : List (List α)} {i j : Nat} {w : α} (hs : s.length = mat.length)
    (hi : i < mat.length) (hj : j < (mat.getD i []).length) (h0 : (mat.getD i []).getD j (lit 0) = lit 0) (k : Nat) :
    dotCol s (matSet mat i j w) k = dotCol s mat k + if k = j then s.getD i (lit 0) * w else lit 0 := by
  induction mat generalizing s i with
  | nil => simp at hi
  | cons row mat ih =>
    cases s with
    | nil => simp at hs
    | cons a s =>
      cases i with
      | zero =>
        have hj' : j < row.length := by simpa using hj
        simp only [List.getD_cons_zero] at h0
        simp only [matSet, List.modify_zero_cons, dotCol_cons, List.getD_cons_zero]
        by_cases hk : k = j
        · subst hk
          rw [if_pos rfl, h0, Exact.mul_zero, Exact.zero_add, Exact.add_comm]
          congr 1
          simp only [List.getD_eq_getElem?_getD, List.getElem?_set_self hj', Option.getD_some]
        · simp only [if_neg hk, List.getD_eq_getElem?_getD, List.getElem?_set_ne (Ne.symm hk), Exact.add_zero]
      | succ i =>
        have := ih (s := s) (i := i) (by simpa using hs) (by simpa using hi) (by simpa using hj) (by simpa using h0)
        simp only [matSet] at this
        simp only [matSet, List.modify_succ_cons, dotCol_cons, List.getD_cons_succ]
        rw [this, Exact.add_assoc]

theorem dotCol_zero (s : List α) (n k j : Nat) :
    dotCol s (List.replicate n (List.replicate k (lit 0))) j = lit 0 := by
  induction s generalizing n with
  | nil => simp [dotCol, pysum]
  | cons a s ih =>
    cases n with
    | zero => simp [dotCol, pysum]
    | succ n =>
      rw [List.replicate_succ, dotCol_cons, ih]
      have : (List.replicate k (lit 0 : α)).getD j (lit 0) = lit 0 := by
        rw [List.getD_eq_getElem?_getD, List.getElem?_replicate]
        split <;> simp
      rw [this, Exact.mul_zero, Exact.zero_add]

theorem matSet_row {mat : List (List α)} {i j : Nat} {w : α} (a b : Nat) :
    (((matSet mat i j w).getD a []).length = (mat.getD a []).length) ∧
    (¬ (a = i ∧ b = j) → ((matSet mat i j w).getD a []).getD b (lit 0) = (mat.getD a []).getD b (lit 0)) := by
  unfold matSet
  simp only [List.getD_eq_getElem?_getD, List.getElem?_modify]
  cases hm : mat[a]? with
  | none => exact ⟨rfl, fun _ => rfl⟩
  | some r =>
    by_cases ha : i = a
    · subst ha
      refine ⟨by simp, fun h => ?_⟩
      have hb : j ≠ b := fun e => h ⟨rfl, e.symm⟩
      simp [List.getElem?_set_ne hb]
    · simp [ha]

/-- No two relations have the same ends. -/
def NoParallel (arcs : List (Arc α)) : Prop := arcs.Pairwise fun a b => ¬ (a.origin = b.origin ∧ a.dest = b.dest)

/-- What the matrix product gives to the concept at position `j`. -/
theorem fillMatrix_dot {ks : List String} {arcs : List (Arc α)} {mat res : List (List α)} {s : List α}
    (hl : mat.length = ks.length) (hr : ∀ a < ks.length, (mat.getD a []).length = ks.length)
    (hs : s.length = ks.length) (hp : NoParallel arcs)
    (h0 : ∀ a ∈ arcs, (mat.getD (ks.idxOf a.origin) []).getD (ks.idxOf a.dest) (lit 0) = lit 0)
    (h : fillMatrix ks arcs mat = .ok res) {j : Nat} (hj : j < ks.length) (hnd : ks.Nodup) :
    dotCol s res j = dotCol s mat j +
      total (arcs.filterMap fun a => if a.dest = ks[j] then some (s.getD (ks.idxOf a.origin) (lit 0) * a.weight) else none) := by
  induction arcs generalizing mat with
  | nil => cases h; exact (Exact.add_zero _).symm
  | cons a arcs ih =>
    unfold fillMatrix at h
    split at h
    · rename_i hmem
      have hi : ks.idxOf a.origin < ks.length := List.idxOf_lt_length_iff.2 hmem.1
      have hd : ks.idxOf a.dest < ks.length := List.idxOf_lt_length_iff.2 hmem.2
      have hp' := List.pairwise_cons.1 hp
      have hz := h0 a (by simp)
      rw [ih (mat := matSet mat (ks.idxOf a.origin) (ks.idxOf a.dest) a.weight) (by simp [matSet, hl])
        (fun b hb => by rw [(matSet_row (w := a.weight) b 0).1]; exact hr b hb) hp'.2 ?_ h]
      · rw [dotCol_set (by rw [hs, hl]) (by rw [hl]; exact hi) (by rw [hr _ hi]; exact hd) hz]
        have hiff : j = ks.idxOf a.dest ↔ a.dest = ks[j] := by
          constructor
          · intro e; subst e; simp
          · intro e; rw [e, hnd.idxOf_getElem]
        by_cases hc : a.dest = ks[j]
        · rw [if_pos (hiff.2 hc), List.filterMap_cons, if_pos hc]
          rw [total_cons, Exact.add_assoc]
        · rw [if_neg (fun e => hc (hiff.1 e)), List.filterMap_cons, if_neg hc, Exact.add_zero]
      · intro b hb
        have hne := hp'.1 b hb
        rw [(matSet_row _ _).2 ?_]
        · exact h0 b (by simp [hb])
        · rintro ⟨e1, e2⟩
          have hbm : b.origin ∈ ks ∧ b.dest ∈ ks := by
            constructor
            · apply List.idxOf_lt_length_iff.1; omega
            · apply List.idxOf_lt_length_iff.1; omega
          have f1 : b.origin = a.origin := (List.idxOf_inj hbm.1).1 e1
          have f2 : b.dest = a.dest := (List.idxOf_inj hbm.2).1 e2
          exact hne ⟨f1.symm, f2.symm⟩
    · cases h

end Dot

/-! ### Keyword and positional arguments -/

/-- The stored keyword arguments are acceptable to the function. -/
def KwOk (f : ActFn) (args : Args α) : Prop :=
  match f with
  | .bistate | .threestate | .saturation => args = []
  | .sigmoid | .sigmoidHip | .relm => args = [] ∨ ∃ l, args = [("lambda_val", .num l)]
  | .gceq | .lceq => args = [] ∨ ∃ w, args = [("weight", .num w)]
  | .fuzzy => ∃ m v, kwFuzzy args = .ok (m, v) ∧ m.length = v.length

theorem callActv_exec {f : ActFn} {args : Args α} {vect : List α} (hk : KwOk f args)
    (hv : processFunctionArgs args = .ok vect) (x : α) : callActv f x args = execActvFunction f.id x vect := by
  cases f
  case fuzzy =>
    obtain ⟨m, v, h, hl⟩ := hk
    rw [kwFuzzy_vect h] at hv
    cases hv
    have e : (m ++ v).length / 2 = m.length := by rw [List.length_append, ← hl]; omega
    show (kwFuzzy args >>= fun p => fuzzySet x p.1 p.2) = fuzzySet x ((m ++ v).take ((m ++ v).length / 2)) ((m ++ v).drop ((m ++ v).length / 2))
    rw [e, List.take_left, List.drop_left, h]
    rfl
  case bistate | threestate | saturation =>
    all_goals
      cases hk
      rw [vect_nil] at hv
      cases hv
      rfl
  all_goals
    rcases hk with rfl | ⟨l, rfl⟩
    · rw [vect_nil] at hv; cases hv; rfl
    · rw [vect_num] at hv
      cases hv
      rfl

/-! ### One step -/

/-- The maps on which both engines do the same. -/
structure VecFair (m : FCM α) : Prop where
  active : ∀ c n, m.topology.get? c = some n → n.active = true
  single : NoParallel m.arcList
  fuzzy : ∀ c n f, m.topology.get? c = some n → n.fn = some f → f.name = "fuzzy" → (lit 0 <? n.actvSum) = true
  args : ∀ c n f, m.topology.get? c = some n → n.fn = some f → KwOk f.fn f.args

/-- The specification of a complete concept. -/
def specOf (n : Node α) (f : FnInfo α) (um : Bool) (ex : ExcFn × String) : Concept α where
  active := n.active
  rescale := ex.2 == "PAPAGEORGIUS"
  memory := um
  divisor := if f.name = "fuzzy" then some n.actvSum else none
  act := fun x => callActv f.fn x f.args

theorem RowOf.toSpec {c : Cache α} {i : Nat} {n : Node α} {f : FnInfo α} {id : Nat} {args : List α} {um : Bool}
    {ex : ExcFn × String} (h : RowOf c i n f id args um ex) :
    n.toSpec = some (specOf n f um ex) := by
  unfold Node.toSpec
  rw [h.exec, h.useMem, h.fn]
  rfl

theorem desat_source (k : Concept α) (x : α) : desat k.rescale x = source k x := rfl

theorem state_getD {m : FCM α} {c : Cache α} (hm : Inv m) (hp : m.prepare = .ok c) {x : List α}
    (hx : x.length = m.topology.length) {i : Nat} (hi : i < m.topology.length) :
    ∃ k, m.net.concept (m.topology.keys[i]'(by simpa [Dict.keys] using hi)) = some k ∧
      (List.zipWith desat c.avoidSaturation x)[i]? = some (source k (x.getD i (lit 0))) ∧
      k.active = (m.topology[i]).2.active := by
  obtain ⟨hrow, -, hav⟩ := prepare_ok hp
  obtain ⟨f, id, args, um, ex, hr⟩ := hrow i hi
  have hg := get?_getElem hm.tnd i hi
  refine ⟨specOf (m.topology[i]).2 f um ex, ?_, ?_, rfl⟩
  · show (m.topology.get? _).bind _ = _
    rw [hg]
    exact hr.toSpec
  · rw [List.getElem?_zipWith, hr.avoid, List.getElem?_eq_getElem (by omega : i < x.length)]
    have : x.getD i (lit 0) = x[i]'(by omega) := by
      rw [List.getD_eq_getElem?_getD, List.getElem?_eq_getElem (by omega)]; rfl
    rw [this]
    rfl

theorem keys_getElem_idxOf {ks : List String} {k : String} (h : k ∈ ks) :
    ks[ks.idxOf k]'(List.idxOf_lt_length_iff.2 h) = k := by simp

/-- The concepts' functions accept their stored arguments. -/
def KwArgs (m : FCM α) : Prop := ∀ c n f, m.topology.get? c = some n → n.fn = some f → KwOk f.fn f.args

/-! ### Parallel relations -/

omit [Arith α] in
theorem matSet_twice (mat : List (List α)) (i j : Nat) (v w : α) : matSet (matSet mat i j v) i j w = matSet mat i j w := by
  unfold matSet
  rw [List.modify_modify_eq]
  congr 1
  funext row
  simp

omit [Arith α] in
theorem matSet_comm {mat : List (List α)} {i j i' j' : Nat} {v w : α} (h : ¬ (i = i' ∧ j = j')) :
    matSet (matSet mat i j v) i' j' w = matSet (matSet mat i' j' w) i j v := by
  unfold matSet
  by_cases hi : i = i'
  · subst hi
    rw [List.modify_modify_eq, List.modify_modify_eq]
    congr 1
    funext row
    exact List.set_comm _ _ (fun e => h ⟨rfl, e⟩)
  · exact List.modify_modify_ne _ _ _ hi

omit [Arith α] in
/-- A relation that is written again later does not matter. -/
theorem fillMatrix_again {ks : List String} {i j : Nat} (w : α) : ∀ (as : List (Arc α)) (mat : List (List α)),
    (∃ b ∈ as, ks.idxOf b.origin = i ∧ ks.idxOf b.dest = j) → fillMatrix ks as (matSet mat i j w) = fillMatrix ks as mat
  | [], mat, h => by obtain ⟨b, hb, -⟩ := h; cases hb
  | a :: as, mat, h => by
    unfold fillMatrix
    by_cases hm : a.origin ∈ ks ∧ a.dest ∈ ks
    · rw [if_pos hm, if_pos hm]
      by_cases he : ks.idxOf a.origin = i ∧ ks.idxOf a.dest = j
      · rw [he.1, he.2, matSet_twice]
      · rw [matSet_comm (fun e => he ⟨e.1.symm, e.2.symm⟩)]
        refine fillMatrix_again w as _ ?_
        obtain ⟨b, hb, e⟩ := h
        rcases List.mem_cons.1 hb with rfl | hb
        · exact absurd e he
        · exact ⟨b, hb, e⟩
    · rw [if_neg hm, if_neg hm]

/-- `Spec.latest` for the stored relations. -/
def latestArcs : List (Arc α) → List (Arc α)
  | [] => []
  | a :: as => if ∃ b ∈ as, b.origin = a.origin ∧ b.dest = a.dest then latestArcs as else a :: latestArcs as

omit [Arith α] in
theorem latestArcs_sublist : ∀ as : List (Arc α), (latestArcs as).Sublist as
  | [] => .slnil
  | a :: as => by
    unfold latestArcs
    split
    · exact (latestArcs_sublist as).cons _
    · exact (latestArcs_sublist as).cons_cons _

omit [Arith α] in
theorem latestArcs_single : ∀ as : List (Arc α), NoParallel (latestArcs as)
  | [] => List.Pairwise.nil
  | a :: as => by
    unfold latestArcs
    split
    · exact latestArcs_single as
    · rename_i h
      refine List.Pairwise.cons (fun b hb e => h ⟨b, (latestArcs_sublist as).subset hb, e.1.symm, e.2.symm⟩) (latestArcs_single as)

omit [Arith α] in
theorem latest_map : ∀ as : List (Arc α), latest (as.map Arc.toSpec) = (latestArcs as).map Arc.toSpec
  | [] => rfl
  | a :: as => by
    have hc : (∃ s ∈ as.map Arc.toSpec, s.origin = (Arc.toSpec a).origin ∧ s.dest = (Arc.toSpec a).dest) ↔
        ∃ b ∈ as, b.origin = a.origin ∧ b.dest = a.dest := by
      constructor
      · rintro ⟨s, hs, e⟩
        obtain ⟨b, hb, rfl⟩ := List.mem_map.1 hs
        exact ⟨b, hb, e⟩
      · rintro ⟨b, hb, e⟩
        exact ⟨_, List.mem_map_of_mem hb, e⟩
    rw [List.map_cons]
    unfold latest latestArcs
    simp only [hc]
    split
    · exact latest_map as
    · rw [List.map_cons, latest_map as]

omit [Arith α] in
theorem latestArcs_eq : ∀ {as : List (Arc α)}, NoParallel as → latestArcs as = as
  | [], _ => rfl
  | a :: as, h => by
    have h := List.pairwise_cons.1 h
    unfold latestArcs
    rw [if_neg (fun ⟨b, hb, e⟩ => h.1 b hb ⟨e.1.symm, e.2.symm⟩), latestArcs_eq h.2]

omit [Arith α] in
/-- The matrix has the last of parallel relations. -/
theorem fillMatrix_latest {ks : List String} : ∀ (as : List (Arc α)) (mat : List (List α)),
    (∀ a ∈ as, a.origin ∈ ks ∧ a.dest ∈ ks) → fillMatrix ks as mat = fillMatrix ks (latestArcs as) mat
  | [], mat, _ => rfl
  | a :: as, mat, h => by
    have ih := fun mat => fillMatrix_latest as mat fun b hb => h b (by simp [hb])
    rw [latestArcs]
    split
    · rename_i hd
      obtain ⟨b, hb, e⟩ := hd
      rw [fillMatrix, if_pos (h a (by simp)), fillMatrix_again _ as mat ⟨b, hb, by rw [e.1], by rw [e.2]⟩, ih]
    · rw [fillMatrix, if_pos (h a (by simp)), ih, fillMatrix, if_pos (h a (by simp))]

/-- On fair maps both engines see the same. -/
theorem VecFair.vector {m : FCM α} (hf : VecFair m) : m.net.vector = m.net := by
  unfold Net.vector FCM.net
  dsimp only
  congr 1
  · funext c
    cases hg : m.topology.get? c with
    | none => rfl
    | some n =>
      simp only [Option.bind_some]
      unfold Node.toSpec
      cases h1 : n.exec with
      | none => rfl
      | some ex =>
        cases h2 : n.useMem with
        | none => rfl
        | some um =>
          cases h3 : n.fn with
          | none => rfl
          | some f =>
            simp only [Option.map_some, Option.some.injEq]
            unfold Concept.vector
            rw [hf.active c n hg]
            by_cases hz : f.name = "fuzzy"
            · simp only [if_pos hz, Option.filter_some, hf.fuzzy c n f hg h3 hz, if_true]
            · simp only [if_neg hz, Option.filter_none]
  · rw [latest_map, latestArcs_eq hf.single]

/-- One entry of the next column is the next value of the recurrence, as the vectorised engine sees the map. -/
theorem vecNode_vector [Exact α] {m : FCM α} (hm : CleanInv m) {c : Cache α} (hp : m.prepare = .ok c) (hf : KwArgs m)
    {x : List α} (hx : x.length = m.topology.length) {i : Nat} (hi : i < m.topology.length) (v : α) :
    vecNode c (List.zipWith desat c.avoidSaturation x) i = .ok v ↔
    next m.net.vector (fun k => x.getD (m.topology.keys.idxOf k) (lit 0)) (m.topology.keys[i]'(by simpa [Dict.keys] using hi)) =
      some (.ok v) := by
  have hlk : m.topology.keys.length = m.topology.length := by simp [Dict.keys]
  obtain ⟨hrow, hmat, hav⟩ := prepare_ok hp
  obtain ⟨f, id, args, um, ex, hr⟩ := hrow i hi
  have hg := get?_getElem hm.inv.tnd i hi
  set s := List.zipWith desat c.avoidSaturation x with hs
  have hsl : s.length = m.topology.length := by rw [hs, List.length_zipWith, hav, hx]; simp
  have hfn : f.Ok := (hm.inv.nodes _ _ hg).fn f hr.fn
  have hid : id = f.fn.id := by
    have := hr.const
    rw [getConst_eq, hfn] at this
    simpa using this.symm
  have hcall := callActv_exec (hf _ _ _ hg hr.fn) ((hm.good _ _ hg).vect _ _ hr.fn hr.vect)
  have hcon0 : m.net.concept (m.topology.keys[i]'(by omega)) =
      some (specOf (m.topology[i]).2 f um ex) := by
    show (m.topology.get? _).bind _ = _
    rw [hg]
    exact hr.toSpec
  have hcon : m.net.vector.concept (m.topology.keys[i]'(by omega)) =
      some (specOf (m.topology[i]).2 f um ex).vector := by
    show (m.net.concept _).map _ = _
    rw [hcon0]
    rfl
  -- the inputs
  have hin : total (inputs m.net.vector (fun k => x.getD (m.topology.keys.idxOf k) (lit 0)) (m.topology.keys[i]'(by omega))) =
      dotCol s c.relationMatrix i := by
    rw [fillMatrix_latest _ _ hm.inv.ends] at hmat
    rw [fillMatrix_dot (ks := m.topology.keys) (s := s) (by simp [hlk]) ?_ (by omega) (latestArcs_single _) ?_ hmat
      (by omega) hm.inv.tnd, dotCol_zero, Exact.zero_add]
    · congr 1
      unfold inputs
      rw [show m.net.vector.rels = (latestArcs m.arcList).map Arc.toSpec from latest_map _, List.filterMap_map]
      apply List.filterMap_congr
      intro a ha
      have hend := hm.inv.ends a ((latestArcs_sublist _).subset ha)
      have hlt : m.topology.keys.idxOf a.origin < m.topology.length := by
        rw [← hlk]; exact List.idxOf_lt_length_iff.2 hend.1
      obtain ⟨k, hk1, hk2, -⟩ := state_getD hm.inv hp hx hlt
      rw [keys_getElem_idxOf hend.1] at hk1
      have hk1' : m.net.vector.concept a.origin = some k.vector := by
        show (m.net.concept _).map _ = _
        rw [hk1]
        rfl
      have hact : k.vector.active = true := rfl
      simp only [Function.comp, along, Arc.toSpec, hk1', hact, if_true]
      rw [← hs] at hk2
      rw [List.getD_eq_getElem?_getD (l := s), hk2]
      rfl
    · intro a ha
      rw [List.getD_eq_getElem?_getD, List.getElem?_replicate, if_pos (by omega)]
      simp [hlk]
    · intro a ha
      simp only [List.getD_eq_getElem?_getD, List.getElem?_replicate]
      split
      · simp only [Option.getD_some, List.getElem?_replicate]
        split <;> simp
      · simp
  have hidx : m.topology.keys.idxOf (m.topology.keys[i]'(by omega)) = i := hm.inv.tnd.idxOf_getElem _ _
  obtain ⟨k, hk1, hk2, -⟩ := state_getD hm.inv hp hx hi
  rw [hcon0] at hk1
  cases hk1
  rw [← hs] at hk2
  have hnode : vecNode c s i = .ok v ↔ ∃ y, normInput (if f.name = "fuzzy" then (m.topology[i]).2.actvSum else lit 0)
      (if um then dotCol s c.relationMatrix i + source (specOf (m.topology[i]).2 f um ex) (x.getD i (lit 0))
        else dotCol s c.relationMatrix i) = .ok y ∧ execActvFunction id y args = .ok v := by
    rw [vecNode_ok]
    constructor
    · rintro ⟨si, mem, r, f', args', y, h1, h2, h3, h4, h5, h6, h7⟩
      rw [hk2] at h1; cases h1
      rw [hr.memory] at h2; cases h2
      rw [hr.normalize] at h3; cases h3
      rw [hr.functions] at h4; cases h4
      rw [hr.functionArgs] at h5; cases h5
      exact ⟨y, h6, h7⟩
    · rintro ⟨y, h6, h7⟩
      exact ⟨_, _, _, _, _, y, hk2, hr.memory, hr.normalize, hr.functions, hr.functionArgs, h6, h7⟩
  rw [hnode]
  unfold next
  rw [hcon, Option.map_some, Option.some.injEq]
  dsimp only
  rw [hin, hidx]
  unfold Concept.vector specOf normInput
  rw [hid]
  by_cases hz : f.name = "fuzzy"
  · simp only [if_pos hz, Option.filter_some]
    by_cases hpos : (lit 0 <? m.topology[i].2.actvSum) = true
    · have hne : (m.topology[i].2.actvSum =? lit 0) = false := Exact.pos_ne _ hpos
      simp only [if_pos hpos]
      rw [hne, if_neg (show ¬ (false = true) by simp)]
      unfold pdiv
      rw [hne, if_neg (show ¬ (false = true) by simp), hcall]
      constructor
      · rintro ⟨y, h6, h7⟩
        cases h6
        exact h7
      · exact fun h => ⟨_, rfl, h⟩
    · simp only [if_neg hpos, hcall]
      constructor
      · rintro ⟨y, h6, h7⟩
        cases h6
        exact h7
      · exact fun h => ⟨_, rfl, h⟩
  · simp only [if_neg hz, Option.filter_none, Exact.lt_self, hcall]
    constructor
    · rintro ⟨y, h6, h7⟩
      cases h6
      exact h7
    · exact fun h => ⟨_, rfl, h⟩

/-- … and so it is, on fair maps, of the map itself. -/
theorem vecNode_next [Exact α] {m : FCM α} (hm : CleanInv m) {c : Cache α} (hp : m.prepare = .ok c) (hf : VecFair m)
    {x : List α} (hx : x.length = m.topology.length) {i : Nat} (hi : i < m.topology.length) (v : α) :
    vecNode c (List.zipWith desat c.avoidSaturation x) i = .ok v ↔
    next m.net (fun k => x.getD (m.topology.keys.idxOf k) (lit 0)) (m.topology.keys[i]'(by simpa [Dict.keys] using hi)) =
      some (.ok v) := by
  rw [vecNode_vector hm hp hf.args hx hi v, hf.vector]

theorem vecStep_next [Exact α] {m : FCM α} (hm : CleanInv m) {c : Cache α} (hp : m.prepare = .ok c) (hf : VecFair m)
    {x y : List α} (hx : x.length = m.topology.length)
    (hy : (List.range m.topology.length).mapM (vecNode c (List.zipWith desat c.avoidSaturation x)) = .ok y)
    {i : Nat} (hi : i < m.topology.length) :
    next m.net (fun k => x.getD (m.topology.keys.idxOf k) (lit 0)) (m.topology.keys[i]'(by simpa [Dict.keys] using hi)) =
      some (.ok (y.getD i (lit 0))) := by
  have hyl : y.length = m.topology.length := by simpa using mapM_length hy
  have hyi := mapM_getElem hy i (by simpa using hi) (by omega)
  rw [List.getElem_range] at hyi
  have hyv : y.getD i (lit 0) = y[i]'(by omega) := by
    rw [List.getD_eq_getElem?_getD, List.getElem?_eq_getElem (by omega)]; rfl
  rw [hyv]
  exact (vecNode_next hm hp hf hx hi _).1 hyi

/-! ### Whole runs -/

section Runs
variable [Exact α]

/-- The recorded trajectories entry by entry. -/
theorem VecDone.at' {m m' : FCM α} {c : Cache α} {ys : List (List α)} {k : Nat} (h : VecDone m m' c ys k)
    (hm : Inv m) (hm' : Inv m') (hne : m.topology ≠ []) {t : Nat} (ht : t < k) :
    ∃ x, ys[t]? = some x ∧ Spec.at' m'.traj t = fun d => x.getD (m.topology.keys.idxOf d) (lit 0) := by
  have hlk : m.topology.keys.length = m.topology.length := by simp [Dict.keys]
  have hn : 0 < m.topology.keys.length := by rw [hlk]; exact List.length_pos_iff.2 hne
  have hk := (h.traj_take Exact.two hne hn).1
  have hx : ys[t]? = some ys[t] := List.getElem?_eq_getElem (by omega)
  have hl : (ys[t]).length = m.topology.length := by
    rw [h.cols.len _ (List.getElem_mem (by omega))]; simp [FCM.start, Dict.keys]
  refine ⟨_, hx, ?_⟩
  funext d
  by_cases hd : d ∈ m.topology.keys
  · have hi := List.idxOf_lt_length_iff.2 hd
    have := (h.traj_take Exact.two hne hi).2
    rw [keys_getElem_idxOf hd] at this
    unfold Spec.at'
    rw [this]
    simp only [List.getD_eq_getElem?_getD, List.getElem?_take, if_pos ht, List.getElem?_map, hx, Option.map_some,
      Option.getD_some]
  · have hk' : m'.topology.keys = m.topology.keys := view_keys h.view
    have : m'.execution.get? d = none := by
      rw [Dict.get?_eq_none_iff]
      intro hmem
      exact hd (by rw [← hk']; exact hm'.sub d hmem)
    unfold Spec.at' FCM.traj
    rw [this, List.idxOf_eq_length hd]
    simp [List.getD_eq_getElem?_getD, List.getElem?_eq_none (show (ys[t]).length ≤ m.topology.keys.length by omega)]

/-- On fair maps the vectorised engine records a run of the recurrence. -/
theorem VecDone.isRun {m m' : FCM α} {c : Cache α} {ys : List (List α)} {k : Nat} (h : VecDone m m' c ys k)
    (hm : CleanInv m) (hm' : Inv m') (hne : m.topology ≠ []) (hf : VecFair m) :
    IsRun m.net m.topology.keys m'.traj k := by
  intro d hd
  have hlk : m.topology.keys.length = m.topology.length := by simp [Dict.keys]
  have hi := List.idxOf_lt_length_iff.2 hd
  have htr := h.traj_take Exact.two hne hi
  rw [keys_getElem_idxOf hd] at htr
  have hsl : m.start.length = m.topology.length := by simp [FCM.start, Dict.keys]
  refine ⟨by rw [htr.2]; simp; exact htr.1, ?_⟩
  intro t ht
  obtain ⟨x, hx, ex⟩ := h.at' hm.inv hm' hne (show t < k by omega)
  obtain ⟨y, hy, ey⟩ := h.at' hm.inv hm' hne ht
  have hstep := h.cols.step t x y hx hy
  rw [hsl] at hstep
  have hxl : x.length = m.topology.length := by rw [h.cols.len x (List.mem_of_getElem? hx), hsl]
  have := vecStep_next hm h.prep hf hxl hstep (i := m.topology.keys.idxOf d) (by omega)
  rw [keys_getElem_idxOf hd] at this
  rw [ex, ey, this]

end Runs

end PyFCM
