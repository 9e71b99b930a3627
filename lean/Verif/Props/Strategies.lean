import Verif.Props.Predicts
import Verif.Props.Scores
/-
C104: what each clustering strategy does with a numeric column, and what an unknown one does.
-/
namespace PyFCM
open Arith

variable {α : Type} [Arith α]

/-! ### The strategies -/

/-- The three clusters forced on the values `w` are the result `(k, v, u)`. -/
def Spec.Forced (w : List α) (k : Nat) (v : List α) (u : Option (List (List α))) : Prop :=
  k = 3 ∧ ∃ rows, createThreeClusters w = .ok (v, rows) ∧ u = some [rows.map (·.c0), rows.map (·.c1), rows.map (·.c2)]

theorem discretize_cases {env : ClusterEnv α} {maxc maxiter k : Nat} {strategy name : String} {vals v : List α}
    {u : Option (List (List α))} (h : discretize env maxc maxiter strategy name vals = .ok (k, v, u)) :
    10 ≤ (uniq Arith.lt vals).length ∧ ∃ r, runStrategy env maxc maxiter strategy (uniq Arith.lt vals) = .ok r ∧
      ((r.1 < 2 ∧ Spec.Forced (uniq Arith.lt vals) k v u) ∨ (2 ≤ r.1 ∧ k = r.1 ∧ v = uniq Arith.lt vals ∧ u = r.2)) := by
  unfold discretize at h
  dsimp only at h
  split at h
  · cases h
  · rename_i h10
    obtain ⟨r, h1, h⟩ := except_bind_ok h
    refine ⟨by omega, r, h1, ?_⟩
    split at h
    · rename_i hlt
      obtain ⟨q, hq, h⟩ := except_bind_ok h
      cases h
      exact .inl ⟨hlt, rfl, q.2, hq, rfl⟩
    · rename_i hge
      cases h
      exact .inr ⟨by omega, rfl, rfl, rfl⟩

/-- C104: the gap strategy.  With at least three change points of the fitted curve there is a cluster for each but the last,
with the memberships fuzzy c-means finds when it starts with the distances to these points; otherwise three clusters are forced.
The limit is half of the number of values if it is not below that number. -/
theorem C104_gap {env : ClusterEnv α} {maxc maxiter k : Nat} {name : String} {vals v : List α} {u : Option (List (List α))}
    (h : discretize env maxc maxiter "cmeans-gap" name vals = .ok (k, v, u)) :
    let w := uniq Arith.lt vals
    let limit : α := if maxc < w.length then lit (maxc : Int) else lit (w.length : Int) / lit 2
    ∃ xs ys, changePoints (env.image w limit) limit = .ok (xs, ys) ∧
      ((3 ≤ ys.length ∧ k + 1 = ys.length ∧ v = w ∧ ∃ r, u = some r.u ∧
          cmeans env.eps (dec 25 10) (dec 1 10000) maxiter w k ((ys.take k).map fun y => w.map fun x => abs (x - y)) = .ok r) ∨
        (ys.length < 3 ∧ Spec.Forced w k v u)) := by
  intro w limit
  obtain ⟨-, r, h1, h2⟩ := discretize_cases h
  have hlim : effMax maxc w.length = limit := by
    show (if maxc ≥ w.length then _ else _) = if maxc < w.length then _ else _
    by_cases hm : maxc < w.length
    · rw [if_neg (by omega), if_pos hm]
    · rw [if_pos (by omega), if_neg hm]
  unfold runStrategy at h1
  rw [if_pos rfl] at h1
  unfold estimateClusters at h1
  dsimp only at h1
  rw [if_pos rfl] at h1
  unfold estimateGap at h1
  dsimp only at h1
  change (changePoints (env.image w (effMax maxc w.length)) (effMax maxc w.length) >>= _) = _ at h1
  rw [hlim] at h1
  obtain ⟨⟨xs, ys⟩, hc, h1⟩ := except_bind_ok h1
  refine ⟨xs, ys, hc, ?_⟩
  dsimp only at h1
  split at h1
  · rename_i h3
    obtain ⟨q, hq, h1⟩ := except_bind_ok h1
    cases h1
    left
    rcases h2 with ⟨h2, -⟩ | ⟨-, rfl, rfl, rfl⟩
    · dsimp only at h2; omega
    · refine ⟨h3, by dsimp only; omega, rfl, q, rfl, ?_⟩
      unfold cmStd gapInit oneDimDist at hq
      rw [if_pos h3, List.dropLast_eq_take] at hq
      exact hq
  · rename_i h3
    cases h1
    right
    rcases h2 with ⟨-, h2⟩ | ⟨h2, -⟩
    · exact ⟨by omega, h2⟩
    · dsimp only at h2; omega

/-- C104: the robust strategy.  There are as many clusters as components are left, and the membership of a value in a cluster is
the one the last round computed; with one component, three clusters are forced. -/
theorem C104_rl {env : ClusterEnv α} {maxc maxiter k : Nat} {name : String} {vals v : List α} {u : Option (List (List α))}
    (h : discretize env maxc maxiter "rl-cmeans" name vals = .ok (k, v, u)) :
    let w := uniq Arith.lt vals
    ∃ s U, rlCmeans (dec 5 10000) maxiter w = .ok s ∧ s.u = some U ∧
      ((2 ≤ k ∧ k = s.alpha.length ∧ v = w ∧
          u = some ((List.range k).map fun i => U.map fun row => row.getD i (lit 0))) ∨
        (s.alpha.length < 2 ∧ Spec.Forced w k v u)) := by
  intro w
  obtain ⟨-, r, h1, h2⟩ := discretize_cases h
  unfold runStrategy at h1
  rw [if_neg (by decide), if_neg (by decide), if_neg (by decide), if_pos rfl] at h1
  unfold estimateRl at h1
  obtain ⟨s, hs, h1⟩ := except_bind_ok h1
  split at h1
  · cases h1
  · rename_i U hU
    cases h1
    refine ⟨s, U, hs, hU, ?_⟩
    rcases h2 with ⟨h2, h3⟩ | ⟨h2, rfl, rfl, rfl⟩
    · exact .inr ⟨h2, h3⟩
    · exact .inl ⟨h2, rfl, rfl, rfl⟩

/-- C104: a strategy of another name is refused. -/
theorem C104_unknown (env : ClusterEnv α) (maxc maxiter : Nat) {strategy : String} (hs : ¬ Spec.Strategy strategy) (name : String)
    (vals : List α) : ∃ msg, discretize env maxc maxiter strategy name vals = .error (.exc msg) := by
  unfold Spec.Strategy at hs
  rw [not_or, not_or, not_or] at hs
  unfold discretize
  dsimp only
  split
  · exact ⟨_, rfl⟩
  · unfold runStrategy
    rw [if_neg hs.1, if_neg hs.2.1, if_neg hs.2.2.1, if_neg hs.2.2.2]
    exact ⟨_, rfl⟩

/-! ### Tables -/

theorem buildFeature_disc {cfg : GenConf α} {x : Ext α} {ts : List String} {feat : String} {col : Column α} {g g' : Gen α}
    (hd : col.isDiscrete cfg = false) (h : buildFeature cfg x ts feat col g = (.ok (), g')) :
    ∃ r, x.disc feat col.asFloats = .ok r := by
  have key : ∀ {s s' : Gen α}, genContinuous cfg x ts feat col.asFloats s = (.ok (), s') → ∃ r, x.disc feat col.asFloats = .ok r := by
    intro s s' h
    unfold genContinuous at h
    obtain ⟨r, _, hr, -⟩ := bind_okP h
    unfold PyM.lift at hr
    cases hx : x.disc feat col.asFloats with
    | error e => rw [hx] at hr; cases hr
    | ok r => exact ⟨r, rfl⟩
  unfold buildFeature at h
  cases col with
  | strs xs => cases hd
  | bools xs => cases hd
  | ints xs =>
    dsimp only at h
    rw [if_neg (by simpa [Column.isDiscrete] using hd)] at h
    obtain ⟨_, _, h1, -⟩ := bind_okP h
    exact key h1
  | floats xs =>
    dsimp only at h
    rw [if_neg (by simpa [Column.isDiscrete] using hd)] at h
    obtain ⟨_, _, h1, -⟩ := bind_okP h
    exact key h1

theorem buildFcm_disc {cfg : GenConf α} {x : Ext α} {ts : List String} {cols : List (String × Column α)} {g g' : Gen α}
    (h : buildFcm cfg x ts cols g = (.ok (), g')) {p : String × Column α} (hp : p ∈ cols) (hd : p.2.isDiscrete cfg = false) :
    ∃ r, x.disc p.1 p.2.asFloats = .ok r := by
  induction cols generalizing g with
  | nil => cases hp
  | cons c cols ih =>
    obtain ⟨f, col⟩ := c
    unfold buildFcm at h
    obtain ⟨_, g1, h1, h⟩ := bind_okP h
    rcases List.mem_cons.1 hp with rfl | hp
    · exact buildFeature_disc hd h1
    · exact ih h hp

theorem buildFeature_any {cfg : GenConf α} (x : Ext α) (d : String → List α → Except Err (Nat × List α × List (List α)))
    (ts : List String) (feat : String) {col : Column α} (hd : col.isDiscrete cfg = true) :
    buildFeature cfg { x with disc := d } ts feat col = buildFeature cfg x ts feat col := by
  cases col with
  | strs xs => rfl
  | bools xs => rfl
  | ints xs =>
    unfold buildFeature
    dsimp only
    rw [if_pos (by simpa [Column.isDiscrete] using hd), if_pos (by simpa [Column.isDiscrete] using hd)]
    rfl
  | floats xs =>
    unfold buildFeature
    dsimp only
    rw [if_pos (by simpa [Column.isDiscrete] using hd), if_pos (by simpa [Column.isDiscrete] using hd)]
    rfl

theorem buildFcm_any {cfg : GenConf α} (x : Ext α) (d : String → List α → Except Err (Nat × List α × List (List α)))
    (ts : List String) {cols : List (String × Column α)} (hd : ∀ p ∈ cols, p.2.isDiscrete cfg = true) :
    buildFcm cfg { x with disc := d } ts cols = buildFcm cfg x ts cols := by
  induction cols with
  | nil => rfl
  | cons c cols ih =>
    obtain ⟨f, col⟩ := c
    unfold buildFcm
    rw [buildFeature_any x d ts f (hd (f, col) (by simp)), ih fun p hp => hd p (by simp [hp])]

/-- C104: with a strategy of another name a table with a numeric column of many values is never learned, neither by the
generator … -/
theorem C104_build {env : ClusterEnv α} {strategy : String} (hs : ¬ Spec.Strategy strategy) {cfg : GenConf α} {x : Ext α}
    {ts : List String} {cols : List (String × Column α)} {p : String × Column α} (hp : p ∈ cols) (hd : p.2.isDiscrete cfg = false)
    {given : Option (FCM α)} {g g' : Gen α} : Gen.build cfg (x.standard env strategy) ts cols given g ≠ (.ok (), g') := by
  have key : ∀ {s : Gen α}, buildFcm cfg (x.standard env strategy) ts cols s ≠ (.ok (), g') := by
    intro s h
    obtain ⟨r, hr⟩ := buildFcm_disc h hp hd
    obtain ⟨msg, hm⟩ := C104_unknown env 7 200 hs p.1 p.2.asFloats
    have : (x.standard env strategy).disc p.1 p.2.asFloats = .error (.exc msg) := by
      show (discretize env 7 200 strategy p.1 p.2.asFloats >>= _) = _
      rw [hm]
      rfl
    rw [this] at hr
    cases hr
  unfold Gen.build
  cases given with
  | some m => exact key
  | none =>
    dsimp only
    split
    · intro h; cases h
    · exact key

/-- … nor by an estimator. -/
theorem C104_fit {env : ClusterEnv α} {strategy : String} (hs : ¬ Spec.Strategy strategy) {cfg : GenConf α} {x : Ext α}
    {xs ys : List (String × Column α)} {p : String × Column α} (hp : p ∈ joinColumns xs ys) (hd : p.2.isDiscrete cfg = false)
    {e e' : Estimator α} : Estimator.fit cfg (x.standard env strategy) xs ys e ≠ (.ok (), e') := by
  intro h
  unfold Estimator.fit at h
  split at h
  · cases h
  · rename_i e1 _
    dsimp only at h
    rcases hb : buildFcm cfg (x.standard env strategy) (ys.map (·.1)) (joinColumns xs ys) ⟨e1.features, e1.processed, e1.fcm⟩ with ⟨r, g⟩
    rw [hb] at h
    cases r with
    | error err => cases h
    | ok _ =>
      refine C104_build (env := env) (x := x) (ts := ys.map (·.1)) (given := some e1.fcm) (g := ⟨e1.features, e1.processed, e1.fcm⟩) (g' := g) hs hp hd ?_
      exact hb

/-- C104: a table without such columns is learned in the same way whatever the strategy is, known or not. -/
theorem C104_same {env env' : ClusterEnv α} {s s' : String} {cfg : GenConf α} {x : Ext α} {xs ys : List (String × Column α)}
    (hd : ∀ p ∈ joinColumns xs ys, p.2.isDiscrete cfg = true) :
    Estimator.fit cfg (x.standard env s) xs ys = Estimator.fit cfg (x.standard env' s') xs ys := by
  have key : ∀ (env : ClusterEnv α) (s : String), buildFcm cfg (x.standard env s) (ys.map (·.1)) (joinColumns xs ys) =
      buildFcm cfg x (ys.map (·.1)) (joinColumns xs ys) := fun env s => buildFcm_any x _ _ hd
  funext e
  unfold Estimator.fit
  rw [key env s, key env' s']

/-! ### Examples -/

/-- A curve with ten distinct values over the first ten whole numbers, with the default strategy. -/
example : ∃ k v u xs ys, discretize exEnv 7 200 "cmeans-gap" "f" Ex.ten = .ok (k, v, u) ∧
    changePoints (exEnv.image (uniq Arith.lt Ex.ten) 7) 7 = .ok (xs, ys) := by
  obtain ⟨k, v, u, h, -⟩ := C51_returns exEnv_ok (maxc := 7) (maxiter := 200) (strategy := "cmeans-gap") "f" Ex.ten_distinct (le_refl _)
    ⟨by decide, .inl ⟨rfl, by decide⟩⟩
  obtain ⟨xs, ys, hc, -⟩ := C104_gap h
  have hl : (uniq Arith.lt Ex.ten).length = 10 := distinct_unique (distinct_uniq strictOrder_real Ex.ten) Ex.ten_distinct
  rw [hl] at hc
  exact ⟨k, v, some u, xs, ys, h, by simpa using hc⟩

example : ∃ k v u, discretize exEnv 7 200 "rl-cmeans" "f" Ex.ten = .ok (k, v, u) ∧
    ∃ s, rlCmeans (dec 5 10000) 200 (uniq Arith.lt Ex.ten) = .ok s := by
  obtain ⟨k, v, u, h, -⟩ := C51_returns exEnv_ok (maxc := 7) (maxiter := 200) (strategy := "rl-cmeans") "f" Ex.ten_distinct (le_refl _)
    (standard_settings (.inr (.inr (.inr rfl))) (le_refl _))
  obtain ⟨s, U, hs, -⟩ := C104_rl h
  exact ⟨k, v, some u, h, s, hs⟩

/-- A misspelt strategy. -/
theorem Ex.typo : ¬ Spec.Strategy "cmeans_gap" := by unfold Spec.Strategy; decide

example (e e' : Estimator ℝ) : Estimator.fit Ex.realConf (Ex.realExt.standard exEnv "cmeans_gap") Ex.xsn Ex.ysn e ≠ (.ok (), e') :=
  C104_fit (p := ("size", .floats [10, 1, 2, 3, 4, 5, 6, 7, 8, 9, 1])) Ex.typo (by simp [Ex.xsn, joinColumns]) Ex.mixed_numeric

/-- It does no harm to a table of texts. -/
example : Estimator.fit Ex.conf (Ex.ext.standard ⟨0, fun l _ => l, fun _ _ => []⟩ "cmeans_gap") Ex.xs Ex.ys =
    Estimator.fit Ex.conf (Ex.ext.standard ⟨0, fun l _ => l, fun _ _ => []⟩ "cmeans-gap") Ex.xs Ex.ys :=
  C104_same (by decide)

end PyFCM
