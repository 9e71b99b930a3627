# A machine-checked model of PyFCM: design

The library under study is J41R0/PyFCM (`/repo`): fuzzy cognitive maps (`py_fcm/fcm.py`), two inference engines,
activation/decision/relation functions (`py_fcm/utils/functions.py`), a JSON loader and a joiner of maps
(`py_fcm/loader.py`), a learner from tables (`py_fcm/learning/association.py`), fuzzy clustering
(`py_fcm/learning/discretization/*`), an estimator (`py_fcm/fcm_estimator.py`) and data set readers
(`py_fcm/__init__.py`, `py_fcm/utils/__init__.py`). The code was read as text only; nothing was executed.

* `properties.jsonl` - the properties, in English, stated before the proofs.
* `MANIFEST.json` - property -> status and exact theorem names.
* `seeded/LOG.jsonl` - mutation tests: wrong programs the theorems were tried against.
* `lean/` - the Lean 4.33.0 development, `lake build` builds everything.

## Layout of the Lean development

| Where | What |
|---|---|
| `Verif/Model/Arith` | carrier of numbers (`class Arith`, no laws), Python `sum/max/min`, exceptions |
| `Verif/Model/ArithInst` | the instances for reals and rationals |
| `Verif/Model/Py` | raising state functions `PyM`, insertion-ordered dictionaries, list indexing |
| `Verif/Model/Functions` | functions.py: activation, excitation, decision, fuzzyfication, relation measures, name tables |
| `Verif/Model/QuickSort` | functions.py: `__partition`, `dual_quick_sort` |
| `Verif/Model/Fcm` | fcm.py: the map object and all its methods except inference |
| `Verif/Model/Engine` | fcm.py/functions.py: both inference engines, `run_inference` |
| `Verif/Model/Api` | histories of calls (`Op`, `step`), the reachable maps |
| `Verif/Model/Json`, `Join` | `to_json`, `from_json`, `join_maps` on documents |
| `Verif/Model/JsonText` | the texts they write and read (`json.dumps`, `json.loads`) |
| `Verif/Model/LearnUtils`, `Learn`, `Association` | learning/utils.py, association.py, fcm_estimator.py |
| `Verif/Model/Frames` | the input layer of fcm_estimator.py: lists, arrays, dictionaries and data frames |
| `Verif/Model/Plot` | what `plot_execution` and `plot_topology` draw |
| `Verif/Model/Draw` | `fit` and `predict` with plot=True |
| `Verif/Model/Clustering` | learning/utils.py (normalisation), fuzzy_cmeans.py, rl_fuzzy_cmeans.py, clusters_estimation.py, discretization/__init__.py |
| `Verif/Model/Points` | fuzzy_cmeans.py, rl_fuzzy_cmeans.py for data with several columns |
| `Verif/Model/Datasets` | the readers of csv text, factorisation |
| `Verif/Lemmas/*` | helper lemmas and invariants |
| `Verif/Props/*` | the property theorems (`Cxx_...`) with their specifications and, beside each, concrete cases (`example`) that meet the hypotheses |
| `Verif/Examples` | concrete maps and kernel-evaluated counterexamples |
| `Verif/Conformance` | tests, not proofs: the model run on IEEE doubles against the values the repository's own unit tests expect |

Specifications (what a property *means*) are separate definitions in the `Spec` namespace or at the head of a `Props`
file; they speak of lists, counts, sums and observable state and do not call the function they specify.

## How Python is represented

**Numbers.** `class Arith α` lists the operations the code uses (`+ - * /`, Boolean `<= < ==`, `abs exp log sqrt pow`,
integer literals) **without any law**. Properties that do not depend on arithmetic are proved for every `Arith α`,
hence also for IEEE doubles with NaN, signed zeros and rounding. Order-theoretic properties are proved for every carrier
with the laws they need (`TotalLe`, `Ordered`, `Exact`, `Tallying`, `Fractions`, `Linear`: small classes, instances for
the reals and the rationals). Analytic properties (interpolation, clustering, limits) are proved over the reals: there,
rounding, overflow and underflow are *not* modelled. The range of inference and the absence of NaN are also proved in
floating-point arithmetic (C114: any monotone rounding, binary64 in particular, without signs of zeros). Counterexamples are evaluated by the kernel over the rationals (or
proved over the reals); the rational instance has placeholders for `exp`, `log`, `sqrt`, `pow`, which no counterexample
uses.

**Exceptions and mutation.** `PyM σ β = σ → Except Err β × σ`: a method may raise *and* have changed the object before;
the state at the raise point is kept. A concept is a record whose late-assigned dictionary keys are `Option`s, so the
half-built concept a failing `add_concept` leaves behind is a value of the model, and reading a missing key raises
`KeyError`. Python/numba scalar division by zero raises (`pdiv`), numpy array division does not. Out-of-bounds accesses in
`@njit` code, which numba does not check, are the error `oob`; a loop that never ends is the error `diverge`.

**Loops.** `while` loops are structural recursions on an explicit fuel; that the fuel suffices is itself proved
(`C02_terminates`, `C24_sort`), or running out of fuel is an error that the theorems exclude by "returns".

**Histories.** `Op` lists the public mutating methods; `Reachable m`: `m` results from the constructor by any calls,
including calls that raised; `CleanReachable m`: no call raised; `CarefulReachable m`: moreover no concept was added
twice. Estimators: `Spec.Hist` (any calls of fit, predict and score, raising or not), `Spec.Ready`, `Spec.Since`.

**Dictionaries** are insertion-ordered association lists (`Dict`), with Python's update-in-place semantics. **Sets** of
strings (`association.py` iterates over one) are iterated in an arbitrary order: a permutation that is a parameter of the
model, universally quantified in the theorems. **Strings** are Lean strings, `split` is Python's (left to right, non
overlapping).

**Parameters** (universally quantified in the theorems): random start memberships and `np.fmax` epsilon of c-means, the
polynomial fit curve of the gap method (`ClusterEnv`), the iteration order of sets, number formatting and truncation
(`Ext`), literal parsing of csv fields, the spelling of floating-point numbers in JSON (`Numerals`).

## Trusted base

* The Lean 4.33.0 kernel. Axioms: every theorem of the manifest depends on at most `propext`, `Classical.choice` and
  `Quot.sound`; the list per theorem is at the end of this file. No `sorry`, no `native_decide`, no own axioms.
* The Mathlib modules imported (only by way of kernel-checked proofs; their definitions of reals, `exp`, `log`, powers
  appear in the statements over the reals).
* The reading of the Python source: each model definition cites the lines it renders. This correspondence is by
  inspection; `Verif/Conformance` adds tests against the repository's own expected values.
* What the theorem statements say: specification definitions in the `Spec` namespace and in `Verif/Props`.

### What is modelled, and with which simplifications

* `fcm.py`: everything; of the plots, the drawn curves and the drawn graph. JSON is modelled as a document (`to_json`
  yields a record with one optional field per key) and, in `Model/JsonText`, as a text; C119 proves that the text means
  the document. Trusted there: that `json.dumps` and `json.loads` behave as documented, and that the spelling of a float
  reads back. A value of an unexpected type in a document is an error in the model, even where Python would go on.
* `functions.py`: everything except numba's typing of the compiled functions; `vectorized_run` with explicit buffer bounds;
  int32/float64 typing of numpy arrays is not modelled; `np.dot` sums in index order.
* `loader.py`: everything, on documents and on texts.
* `association.py`: everything; tables arrive as lists of named, typed columns. A feature is stored in
  `__features` together with its concepts, while the code stores its data and type first; this can be seen only by
  predicting after a build that raised while it made the concepts of a feature.
* Objects shared between a map and a document made by `to_json(to_str=False)` are copied in the model.
* `fcm_estimator.py`: everything; frames have the index 0..n-1, arrays one or two dimensions and one of
  four types, `x` and `y` the same number of rows.
* `fuzzy_cmeans.py`, `rl_fuzzy_cmeans.py`, `clusters_estimation.py`, `discretization/__init__.py`: for one-column data
  (all that the library passes); norms in one dimension are absolute values. The first two also for data with several
  columns (`Model/Points`, C116 and C117), which gives the same for one column.
* Not modelled: file access, `arff` parsing, pandas internals, `np.polyfit`, random number generation, numba compilation.

## Per property

Status `proved`: the English statement is proved as it stands (possibly with side conditions it names). Status
`partial`: the English statement is false of the code or proved only in part; the full statement is kept as `Cxx_full` or
in the text, counterexamples are theorems named `..._counterexample...`, and what does hold is proved under the name
`..._partial` or as a general theorem.

### C01 run_inference follows the synchronous FCM recurrence (proved)

With the iterative engine (debug=True), after run_inference() returns, each concept's recorded trajectory satisfies, at every step t, A_c(t+1) = f_c( sum of w*A_o(t) over the relations o->c whose origin is active, with 2*A_o-1 in place of A_o for PAPAGEORGIUS origins, plus the concept's own (rescaled) previous value when it uses memory ), every concept reading only step-t values; entry 0 is the initial activation.

Model: `FCM.runInference`, `iterLoop`, `FCM.stepOnce` (Engine). Spec: `Spec.next` - a recurrence over trajectories written with list sums over relations, independent of the engine's accumulators. Proof: loop invariant 'the trajectories recorded so far satisfy the recurrence and the concept values are their last entries', for every reachable map; each step is a frame-and-update argument over the relation list.

*Scope:* Iterative engine, every arithmetic, every reachable map on which run_inference() returns.

*Theorems:* `C01_recurrence`.

### C02 run_inference always terminates within max_iter plus the extra steps (proved)

The iterative engine performs at most (max_iter - 1) + (extra_steps - 1) steps (max_iter >= 1), hence every trajectory has at most max_iter + extra_steps - 1 entries; with stop_at_stabilize=False it performs exactly that many (when extra_steps >= 2 and no exception is raised).

Model: the loop of `__iterative_inference` with fuel. Proof: the fuel given always suffices (`C02_terminates`: never `diverge`); counting invariant on iterations and extra counter for the bound and the exact number of steps; `C02_vector_bound` for the vectorised engine.

*Scope:* Both engines; exact count without stop_at_stabilize.

*Theorems:* `C02_terminates`, `C02_bound`, `C02_exact`, `C02_no_step`, `C02_vector_bound`.

### C03 run_inference stops only for a documented reason (proved)

When the iterative engine stops, each of its last extra_steps - 1 steps was entered either with the iteration limit reached or (only if stop_at_stabilize) with every concept having moved by at most stability_diff in the preceding step.

Spec: `StopsAt` - the least length whose prefixes were quiet `extra_steps - 1` times. Proof: the loop invariant relates the counter to the number of quiet prefixes.

*Scope:* Least length with extra_steps-1 quiet prefixes.

*Theorems:* `C03_stop_reason`.

### C04 run_inference is repeatable (proved)

Calling run_inference() again without touching the map yields exactly the same trajectories and the same final values.

Proof: reset at the start of `run_inference` rebuilds the start state exactly, and the engine is a function of it; both engines, every arithmetic, whole-object equality.

*Scope:* Both engines, every arithmetic; the second run leaves the whole object unchanged.

*Theorems:* `C04_repeatable`.

### C05 reset_execution and clear_execution restore the starting state (proved)

After any run, reset_execution() gives every concept back the activation it had at the start of the run, and clear_execution() sets every concept to 0.0; neither changes concepts, properties, relations or map settings.

Proof: frames of `resetExecution`, `clearExecution` over reachable maps, and the run keeps the head of every trajectory.

*Theorems:* `C05_reset_after_run`, `C05_reset`, `C05_clear`.

### C06 Activation functions stay in their documented ranges (proved)

saturation, sigmoid, relm (positive slope) and gceq/lceq/sigmoid_hip/fuzzy return values in [0,1], respectively [-1,1]; biestate returns 0 or 1 and threestate 0, 0.5 or 1.

One theorem per activation function over the reals; `fuzzy_set` by correctness of its binary search.

*Scope:* Over the reals; fuzzy_set for sorted descriptions with memberships in [0,1].

*Theorems:* `C06_saturation`, `C06_bistate`, `C06_threestate`, `C06_sigmoid`, `C06_sigmoid_hip`, `C06_relm`, `C06_relm_slope`, `C06_gceq`, `C06_lceq`, `C06_fuzzy`.

### C07 Inference never leaves [-1,1] (proved)

If every initial activation lies in [-1,1] and run_inference() returns, every recorded value and every final value lies in [-1,1] (for fuzzy memberships in [0,1] and positive relm slopes).

Invariant over steps from C06 for both engines; the hypotheses of the English statement are `TameArgs` (keyword arguments) and `TameVect` (argument vectors); `tame_of_args` derives the second from the first.

*Scope:* Real arithmetic, every reachable map, both engines, both hypotheses of the statement (fuzzy memberships in [0,1] over ascending values, positive relm slopes) made explicit.

*Theorems:* `C07_iterative`, `C07_vectorised`, `tame_of_args`, `C114_iterative`, `C114_vectorised`.

### C08 Decision functions compute last / mean / highest (proved)

LAST returns a recorded value, MEAN the arithmetic mean of the entries up to the last valid position, EXITED the highest of the considered entries; the result always lies between the smallest and the largest recorded value.

Decision functions against independent specs (`decideBy`); `C08_between` over the reals.

*Scope:* Decision functions against independent specifications; values between bounds over the reals.

*Theorems:* `C08_final_value`, `C08_last`, `C08_mean`, `C08_exited`, `C08_between`.

### C09 EXITED decision is available for every run (partial)

run_inference() with decision_function='EXITED' completes on every map on which it completes with 'LAST'.

False of the code: `C09_counterexample`; `C09_exited_iff` is the exact condition for EXITED to complete where LAST completes.

*Scope:* False as stated: counterexample proved, with the exact condition under which EXITED completes.

*Theorems:* `C09_exited_iff`, `C09_counterexample`, `C09_exited_partial`, `C09_false`.

### C10 Inactive concepts do not influence their neighbours (partial)

The trajectory of every other concept is independent of the weights of the relations leaving an inactive concept, in both engines.

Iterative engine: congruence of the run under changed weights of inactive origins; counterexamples for the vectorised engine and for fuzzy normalisers. `C10_added_partial`: adding such relations.

*Scope:* Iterative engine: proved for concepts whose divisor does not change; the vectorised engine ignores inactivity and fuzzy concepts divide by all incoming weights (counterexamples).

*Theorems:* `C10_iterative`, `C10_added_partial`, `C10_counterexample_vector`, `C10_counterexample_fuzzy`.

### C11 The vectorised engine computes the same trajectory as the iterative engine (partial)

For the same map, step t of the trajectory recorded with debug=False equals step t recorded with debug=True, for every t both engines execute.

Refinement: both engines satisfy the same recurrence (C01) under the stated preconditions; three counterexamples show that each precondition is needed.

*Scope:* Exact arithmetic (every Exact carrier, e.g. reals and rationals), maps with active concepts, no parallel relations, positive fuzzy weight sums; outside that the engines disagree (three counterexamples).

*Theorems:* `C11_recurrence_partial`, `C11_same_partial`, `C11_counterexample_inactive`, `C11_counterexample_parallel`, `C11_counterexample_fuzzy`.

### C12 The vectorised engine stays inside its output buffer (partial)

vectorized_run never writes outside its (concepts x max_iter) output matrix.

The buffer write is checked in the model (`oob`); exact condition and counterexample.

*Scope:* Inside iff the run stabilises within max_iter columns; otherwise column max_iter is written (counterexample).

*Theorems:* `C12_inside_partial`, `C12_overruns`, `C12_zero_threshold`, `C12_counterexample`.

### C13 The vectorised engine reports the trajectory it computed (partial)

The trajectory read back from the output matrix holds exactly the initial state and the executed steps for every concept.

Read-back of the matrix: characterisation of the recorded columns, and the two ways it fails.

*Scope:* Exact when fewer than max_iter columns ran and the first concept never equals 2 (automatic on maps bounded by C07); last column dropped at exactly max_iter; initial value 2 makes the run raise.

*Theorems:* `C13_recorded_partial`, `C13_tame_partial`, `C13_two`, `C13_counterexample`.

### C14 The vectorised engine never uses stale prepared data (partial)

Whenever the prepared flag is set, the cached relation matrix, function ids, arguments, memory and saturation flags are what rebuilding them from the current concepts and relations would give.

Invariant over histories: `prepared` implies that the cache equals what rebuilding would give; counterexample via `clear_all`.

*Scope:* Every reachable map (exceptions allowed) that has a concept and whose data can be rebuilt; counterexample: clear_all keeps the prepared flag.

*Theorems:* `C14_coherent_partial`, `C14_counterexample`.

### C15 Inference does not depend on the order in which relations were added (partial)

Two maps that differ only in the order of their add_relation calls produce the same trajectories and final values (in exact arithmetic).

Permutation invariance of the sums in exact arithmetic, lifted through both engines; counterexample for parallel relations in the vectorised engine.

*Scope:* Exact arithmetic. Iterative engine: all permutations. Vectorised engine: without parallel relations (counterexample otherwise).

*Theorems:* `C15_iterative`, `C15_vectorised_partial`, `C15_counterexample`, `C15_returns`.

### C16 Outgoing relations agree with the exported relations (partial)

get_concept_outgoing_relations(c) lists exactly the relations with origin c that to_json exports, in the same order.

Invariant relating the outgoing view and the relation list over careful histories; both exclusions have counterexamples.

*Scope:* Holds for every history that does not re-add a concept and in which add_relation does not raise; both exclusions are necessary (counterexamples).

*Theorems:* `C16_outgoing_partial`, `C16_counterexample`, `C16_counterexample_raise`.

### C17 Relations only ever join existing concepts (proved)

add_relation with an unknown origin or destiny changes nothing observable, and in every reachable map every exported relation has both ends among the concepts.

Invariant over all reachable maps (including after exceptions).

*Scope:* Every reachable state, including those left behind by exceptions.

*Theorems:* `C17_unknown`, `C17_ends`, `C17_exported`.

### C18 A rejected add_concept leaves the map as it was (partial)

If add_concept raises, the map's concepts, values and relations are unchanged and the map remains usable.

Frame of a raising `add_concept`; `C18_unusable`, `C18_repair` say what the half-built concept does; counterexample to the full claim.

*Scope:* False of the code: the half-built concept stays and every later run_inference() raises (C18_unusable); the frame (other concepts, relations, trajectories, settings) is proved; a later accepted add_concept repairs the map.

*Theorems:* `C18_rejected_partial`, `C18_unusable`, `C18_repair`, `C18_counterexample`.

### C19 set_concept_properties changes only what it is asked to (partial)

set_concept_properties changes no other concept, no relation, no value and, of the named concept, only the properties passed; on an unknown concept it raises and changes nothing.

Frame of `set_concept_properties` for all calls; counterexample: unnamed properties are reset.

*Scope:* Frame proved for all calls; the memory flag and the activation function are reset to the map settings when not passed (counterexample).

*Theorems:* `C19_unknown`, `C19_frame`, `C19_named_partial`, `C19_counterexample`.

### C20 set_map_activation_function governs every concept without a custom function (partial)

After set_map_activation_function(f), every concept without a custom function - existing or added later - is evaluated with f, and concepts with a custom function keep theirs.

Characterisation of all concepts after the call; counterexample for concepts added later.

*Scope:* Existing concepts and custom concepts: proved for all histories; concepts added later get the default concept function, which is not updated (counterexample).

*Theorems:* `C20_existing`, `C20_custom_kept`, `C20_added`, `C20_later_partial`, `C20_counterexample`.

### C21 get_final_state returns exactly the requested concepts (partial)

get_final_state(names=ns) returns the existing concepts named in ns; otherwise 'any' returns all concepts, 'target' exactly the decision/regression ones, another type exactly the concepts of that type; each with the value get_concept_value reports.

Exact result list for each kind of request over clean histories; counterexample after a rejected `add_concept`.

*Scope:* Proved for every history without exceptions; after a rejected add_concept the half-built concept is not reported (counterexample).

*Theorems:* `C21_final_state_partial`, `C21_counterexample`.

### C22 is_stable reports whether the last step moved any concept (partial)

is_stable() never raises, is False before any step was run and otherwise is True exactly if every concept's last two recorded values differ by at most stability_diff.

Exact before any run and after iterative runs; counterexamples otherwise.

*Scope:* Exact after every iterative run and before any run; raises IndexError after run + init_concept; False after vectorised runs.

*Theorems:* `C22_after_run_partial`, `C22_before`, `C22_counterexample`, `C22_counterexample_vector`.

### C23 fuzzy_set interpolates linearly between the described points (partial)

For a strictly increasing val_list, fuzzy_set returns the membership at a listed value, the first/last membership outside the range, and the linear interpolation of the neighbouring memberships in between.

Correctness of the binary search (loop invariant) and of the interpolation formula; counterexamples for negative inputs and one point.

*Scope:* Proved for non-negative inputs and descriptions of at least two points; false for negative inputs and one-point descriptions (counterexample).

*Theorems:* `C23_interpolates_partial`, `C23_mirrored`, `C23_counterexample`, `C23_false`.

### C24 dual_quick_sort sorts and keeps values paired (proved)

dual_quick_sort terminates, leaves the main array sorted ascending, and permutes both arrays by the same permutation.

In-place Hoare partition on lists: loop invariants for both scanning loops, permutation of the zipped lists, termination of the recursion, for every total preorder; `C24_nan`: without totality it diverges.

*Scope:* Every carrier with a total transitive order; C24_nan shows the order hypothesis is needed (a NaN pivot loops forever).

*Theorems:* `C24_sort`, `C24_nan`.

### C25 Activation dictionaries are scaled into [0,1] (partial)

add_concept scales the (sorted) val_list of a fuzzy concept into [0,1], monotonically, with the largest value mapped to 1, keeping each value's membership.

From C24 plus the scaling formula; lifted to the concept stored by `add_concept`.

*Scope:* Real arithmetic; proved unless all values are equal and not positive, where the code divides 0 by 0.

*Theorems:* `C25_scaled_partial`, `C25_stored_partial`, `C25_counterexample`.

### C26 Sigmoids are monotone, symmetric and their slope fit is exact (proved)

sigmoid and sigmoid_hip are monotone in the input for positive slope; sigmoid(-x) = 1 - sigmoid(x); sigmoid(x, sigmoid_lambda(x, y)) = y for 0<y<1 and sigmoid_hip(x, sigmoid_hip_lambda(x, y)) = y for 0<=y<1, x>0.

Real analysis with `Real.exp`, `Real.log`.

*Scope:* Over the reals.

*Theorems:* `C26_sigmoid_mono`, `C26_sigmoid_symm`, `C26_sigmoid_hip_mono`, `C26_sigmoid_fit`, `C26_sigmoid_hip_fit`, `C26_sigmoid_hip_fit_nonneg`.

### C27 Function names resolve consistently (partial)

For every string, the callable and the vectorised constant are both defined or both undefined, dispatching the constant computes the same function, and every advertised function name resolves.

Case split over the name tables, for every string.

*Scope:* Consistency proved for every string and every arithmetic; the advertised names "proportion" and "MEAN" do not resolve.

*Theorems:* `C27_both`, `C27_same`, `C27_advertised_partial`, `C27_counterexample`, `C27_false`.

### C28 JSON export followed by import reproduces the map (partial)

from_json(m.to_json()) succeeds and yields a map with the same concepts, properties, activations, relations and settings, that runs to the same result.

Round trip: export then import evaluated symbolically by induction over concepts and relations; `C28_runs_partial` adds equality of runs.

*Scope:* Exact reconstruction and identical runs for maps of active KOSKO concepts with the map memory flag and non-fuzzy functions; C28_forgets / C28_fuzzy show in general what is lost otherwise.

*Theorems:* `C28_roundtrip_partial`, `C28_runs_partial`, `C28_forgets`, `C28_fuzzy`, `C28_counterexample`.

### C29 from_json builds what the document says (proved)

from_json either raises with the prefix 'Cannot load json data due: ' or returns a map whose concepts are the documented ones in order, whose relations are the listed ones with known ends in order, and whose settings are the given or documented default values.

Characterisation of `from_json` for every document: error prefix or exact contents, by induction over the lists.

*Scope:* Every document (record of the keys read or written); extra_steps below 1 counts as 1, a repeated id is replaced by its last description.

*Theorems:* `C29_error`, `C29_built`, `C110_from_json`.

### C30 join_maps joins the concept sets (partial)

join_maps with 'union' yields exactly the concepts occurring in some input map and with 'intersection' exactly those occurring in all of them (minus zero-valued ones if ignore_zeros).

Join characterised through the documents of the maps (`JoinedMap`) and then restated with observable values only.

*Scope:* Real arithmetic. Whenever the join returns, the concepts are exact; plain maps can always be joined; maps with fuzzy concepts cannot (counterexample).

*Theorems:* `C30_concepts_partial`, `C30_returns`, `C30_counterexample`.

### C31 join_maps aggregates activations as requested (proved)

Each joined concept starts from the highest / lowest / average of its activations over the maps containing it; lowest <= average <= highest.

Spec `Aggregated` (maximum/minimum/mean of the listed values); `C31_order` relates them.

*Scope:* Real arithmetic, every sequence of reachable maps for which the join returns.

*Theorems:* `C31_values`, `C31_order`.

### C32 join_maps aggregates relations as requested (partial)

The joined map has exactly one relation o->d for each pair related in some input map and present in the result, with the highest / lowest / average of the weights given to that pair.

As C30 for relations, names separable; counterexample otherwise.

*Scope:* Proved when no concept name contains the separator or ends like it; counterexample with a name containing it.

*Theorems:* `C32_relations_partial`, `C32_counterexample`.

### C33 join_maps does not depend on the order of the maps (partial)

Permuting the input maps changes neither the set of concepts, nor their values, nor the relations and weights of the result.

From C30-C32: results depend on multisets of values only.

*Scope:* Real arithmetic. Agreement whenever both orders return, unconditionally for plain maps; in general one order may raise while the other returns (counterexample).

*Theorems:* `C33_order_partial`, `C33_plain_partial`, `C33_counterexample`.

### C34 join_maps rejects unknown strategies and handles the trivial inputs (proved)

An unknown strategy raises naming the strategy whatever the maps; the empty sequence yields the default map.

Direct, for all maps and strings.

*Scope:* Every carrier.

*Theorems:* `C34_concept`, `C34_value`, `C34_relation`, `C34_empty`.

### C35 Discrete feature matrices are one-hot (proved)

gen_discrete_feature_matrix has a 1 at (v, i) exactly where row i holds value v; over np.unique values every column contains exactly one 1.

List algebra; `np.unique` modelled as sort plus removal of equals, shown to list each value once.

*Scope:* Every carrier whose equality and order are lawful (reals, rationals); every column type.

*Theorems:* `C35_matrix`, `C35_values`, `C35_one_hot`, `C35_exactly_one`.

### C36 Contingency coefficients count every sample once (proved)

calc_concepts_coefficient's four coefficients sum to the number of samples, have the features' totals as marginals, are non-negative for memberships in [0,1], and the second tuple is the first with the roles swapped.

Sums of products over the reals; swap for every carrier with commutative multiplication.

*Scope:* Real arithmetic; swap law for every carrier with commutative multiplication.

*Theorems:* `C36_table`, `C36_nonneg`, `C36_swap`, `C36_none`.

### C37 Relation measures are bounded (partial)

supp, conf, simple and pos_inf return values in [-1,1] (supp and conf in [0,1]) for contingency tables with a present premise.

Field arithmetic on tables; counterexample for fractional tables.

*Scope:* pos_inf only on tables of counts; a fractional table gives 8.

*Theorems:* `C37_supp`, `C37_conf`, `C37_simple`, `C37_pos_inf_partial`, `C37_counterexample`, `C37_false`.

### C38 Learned maps have no self relations and no parallel relations (partial)

In a map built by build_fcm no concept is related to itself and no ordered pair of concepts carries two relations.

Invariant of the feature loop of `build_fcm`: processed features, names, relations added so far.

*Scope:* Proved for all datasets whose feature and value names can be told apart in concept names; a value containing the separator gives a self relation and parallel relations (counterexample).

*Theorems:* `C38_simple_partial`, `C38_counterexample`.

### C39 Values of one feature exclude each other (partial)

In a learned map each ordered pair of distinct values of one feature is related with exactly the exclusion weight (nothing if it is 0), and relations between different features respect the requested feature/target restriction.

Same invariant, exclusion relations exact.

*Scope:* Proved for all datasets whose names can be told apart; two features that share concept names get the exclusion relation twice (counterexample).

*Theorems:* `C39_exclusion_partial`, `C39_restriction_partial`, `C39_counterexample`.

### C40 fit_inclination takes effect (partial)

AssociationBasedFCM(fit_inclination=True).build_fcm(...) fits the slope of each related concept's sigmoid to the inclination.

The option reaches only a discarded map: equality of both runs for all inputs; slope fitting itself is right (`C40_given_partial`, via C26).

*Scope:* False: the option is set on a map that build_fcm discards. Proved: the option changes nothing; slopes are fitted when the inclination is set on a map passed to build_fcm.

*Theorems:* `C40_no_effect`, `C40_unfitted`, `C40_counterexample`, `C40_given_partial`.

### C41 Learned concept names can be parsed back (partial)

The feature and value of a learned concept are recovered from its name.

Exact condition (iff) for splitting a name back, from a characterisation of Python's `split`.

*Scope:* Exact condition on value and feature text for the name to be split back; a value ending like the separator breaks it (counterexample).

*Theorems:* `C41_parse_partial`, `C41_default_partial`, `C41_injective`, `C41_counterexample`.

### C42 predict returns the most activated class (partial)

For each target feature predict returns the label of a concept with the highest final activation, and that label is one of the training labels, with its type.

From the invariant of learned maps, the frame of initialisation and the argmax loop. `C42_real_partial` (`Props/PredictReal.lean`): entering a row leaves activations in [-1,1] (`started`), the functions of learned concepts keep them there in both engines (`run_within`), so the maximum search that starts at -1 sees every concept.

*Scope:* C42_full is the property; false (C42_counterexample): truth values are predicted as text. C42_predict_partial proves, for any estimator fitted after any history and any predictions since, that each categorical target is predicted as a training value of maximal final activation, provided names can be read and no final activation is below -1; the label has the type of the value if the value is a non-numeral text or a natural number. C42_real_partial drops the condition on the activations for real numbers, the standard clustering, either engine and every proper and tame default function except fuzzy: all final activations lie in [-1,1].

*Theorems:* `C42_predict_partial`, `C42_real_partial`, `C42_counterexample`.

### C43 Predictions do not depend on earlier predictions (proved)

predict on several rows gives for each row the prediction that row would get alone.

Each row starts from `clear_execution` and overwrites everything a run reads.

*Scope:* For every estimator whose last fit returned, after any calls of predict and score: the rows of one call get what each gets alone (including what is raised), and a call that returns changes no later prediction. Both engines, every carrier.

*Theorems:* `C43_rows`, `C43_history`.

### C44 score is the accuracy (proved)

score(x, y) is the fraction of matching labels, in [0,1].

Spec: counting hits; proof by induction over columns.

*Scope:* A returned score is hits / number of true values, between 0 and 1 (carriers where fractions of naturals behave: reals, rationals); C44_scores says when there is a score.

*Theorems:* `C44_accuracy`, `C44_scores`.

### C45 Every feature value of a predicted row is taken into account (partial)

init_concept_by_feature_data activates the concept that training created for that value.

Frame and effect of `init_concept_by_feature_data` on learned maps; `C45_trained` uses C67.

*Scope:* C45_full is the property; false (C45_counterexample): a truth value is looked up as '1' or '0' and ignored. C45_category_partial covers texts and integers of categorical columns (map function not fuzzy), C45_number_partial numbers of numeric columns with any discretization; both say that nothing else changes. C45_trained: with the library's discretization, the number of a training sample sets each cluster to the sample's membership.

*Theorems:* `C45_category_partial`, `C45_number_partial`, `C45_trained`, `C45_counterexample`.

### C46 fuzzy c-means memberships are a fuzzy partition (proved)

After every iteration each sample's memberships are positive and sum to 1.

Algebra of column normalisation; loop invariant (`CmGood`) for the whole of `cmeans`.

*Scope:* Real arithmetic. C46_step: one iteration; C46_cmeans: the whole loop from any admissible start; C46_one: a single cluster. The first theorems are for one column (all the library itself clusters); C116/C117 for any number of columns.

*Theorems:* `C46_step`, `C46_cmeans`, `C46_one`, `C116_step`, `C116_cmeans`.

### C47 fuzzy c-means centres stay inside the data range (proved)

Every cluster centre lies between the smallest and the largest sample.

Weighted means with positive weights lie inside the data.

*Scope:* Real arithmetic. C47_step: one iteration; the centres of the whole run are covered by C46_cmeans. The first theorems are for one column (all the library itself clusters); C116/C117 for any number of columns.

*Theorems:* `C47_step`, `C46_cmeans`, `C116_blend`, `C116_cmeans`.

### C48 robust-learning c-means keeps a valid mixture (proved)

At every iteration the mixing proportions are positive and sum to 1, memberships of each sample sum to 1, the number of clusters never grows and never reaches 0, and no division by zero or logarithm of a non-positive number occurs.

Invariant (`Spec.Mixture`) of the whole loop including the removal of clusters; every division and logarithm is checked (`pdiv`, `plog`), so 'returns' includes 'no division by zero'.

*Scope:* Real arithmetic, at least two samples (C48_single: one sample raises ZeroDivisionError). The first theorems are for one column (all the library itself clusters); C116/C117 for any number of columns.

*Theorems:* `C48_mixture`, `C48_shrink`, `C48_single`, `C117_run`, `C117_shrink`, `C117_single`.

### C49 The forced three-cluster description is a fuzzy partition (partial)

__create_three_clusters returns a sorted value list and memberships in [0,1] that sum to 1 for every value.

Closed form of the table after the in-place loop, by induction over rounds; then arithmetic.

*Scope:* C49_full is the property; false: the value in the centre gets memberships summing to h/(h+1) (C49_counterexample). C49_rows: closed form of all memberships on every carrier; C49_three_partial: everything else holds.

*Theorems:* `C49_rows`, `C49_three_partial`, `C49_counterexample`.

### C50 The gap method finds fewer clusters than the maximum (partial)

Change points are strictly increasing sample positions and the estimated number of clusters is smaller than max_clusters.

Loop invariant on the change points; count by spacing.

*Scope:* Real arithmetic, every curve (the polynomial fit is a parameter). Holds for max_clusters >= 2; with max_clusters = 1 one cluster is found (C50_counterexample).

*Theorems:* `C50_points`, `C50_clusters_partial`, `C50_counterexample`.

### C51 Discretization yields at least two clusters over the distinct values (proved)

fuzzy_feature_discretization rejects fewer than ten distinct values and otherwise returns at least two clusters.

Composition of C46, C48, C49, C50 over all strategies.

*Scope:* C51_two: every carrier, environment and setting. C51_returns: over the reals every strategy returns, with described memberships; C51_many: the silhouette and entropy strategies raise when max_clusters is not below the number of distinct values.

*Theorems:* `C51_two`, `C51_returns`, `C51_many`.

### C52 Loaded CSV datasets are rectangular (partial)

load_csv_dataset keeps exactly the rows with as many fields as the header, in order, so that every column has the same length.

Characterisation of the line loop; `Spec.Fields`, `Spec.Table` define reading independently.

*Scope:* The rows of the header length are returned without repetition; other rows are skipped and repeated rows dropped (counterexample); repeated header names make the load raise.

*Theorems:* `C52_rows_partial`, `C52_all_rows_partial`, `C52_strip`, `C52_rectangular`, `C52_counterexample`, `C52_duplicate_names`, `C52_lines`.

### C53 Fuzzy.fuzzyfication stays within the memberships (proved)

fuzzyfication returns a value between the smallest and the largest membership (memberships in [-1,1]) and the exact membership at a listed value.

Loop invariant of the linear search; real arithmetic.

*Scope:* Over the reals.

*Theorems:* `C53_between`, `C53_listed`.

### C54 A map at rest stays at rest (proved)

A map whose activations are all 0 and whose concepts use sigmoid_hip, saturation, gceq, lceq or relm with KOSKO excitation keeps all activations at 0.

Invariant: all values 0; both engines.

*Scope:* Real arithmetic, every reachable map, both engines.

*Theorems:* `C54_iterative`, `C54_vectorised`.

### C55 An estimator refuses to predict before fit (proved)

predict and score raise before the first successful fit and clear the previous topology on refit.

Estimator as a state machine; invariants over histories.

*Scope:* Histories of fit, predict and score, including raising calls. C55_refit: after a fit that returns, concepts, relations and features are those of the given columns. Changing the map through get_fcm() before the first fit is outside the histories (the first fit does not clear the map).

*Theorems:* `C55_unfitted`, `C55_fitted`, `C55_refit`.

### C56 The fuzzy normaliser is the sum of the incoming weights (partial)

The incoming weight sum kept with every concept (used to normalise the input of fuzzy concepts in both engines) is the sum of the weights of the relations that enter the concept.

Invariant over careful histories: accumulated weight sum equals the sum over the relation list.

*Scope:* Same histories as C16.

*Theorems:* `C56_sum_partial`, `C56_counterexample`, `C56_false`.

### C57 load_dataset loads every rectangular csv file and rejects ragged ones (partial)

load_dataset on csv text whose rows all have the header's field count returns the distinct rows, each field read as a Python literal where it parses and as text otherwise; a file with any row of another length is rejected.

As C52 for `load_dataset`.

*Scope:* Proved when there is a class column or a literal was parsed; a text-only file without class column raises KeyError (counterexample and general theorem).

*Theorems:* `C57_loads_partial`, `C57_ragged`, `C57_text_only`, `C57_counterexample`, `C57_lines`.

### C58 Factorising a column loses nothing (proved)

When a loader replaces a column by its factorisation codes, two entries get equal codes exactly if their values were equal, and the list of distinct values gives every entry back.

List induction.

*Scope:* Every value type with decidable equality.

*Theorems:* `C58_lossless`, `C58_faithful`, `C58_table`.

### C59 Learned relations follow the co-occurrence counts (proved)

For a value u of one categorical column and a value v of another, the map built by build_fcm relates the concept of u to the concept of v with weight w exactly if the evaluation measure of their co-occurrence counts passes the threshold, w is the signed causality measure of those counts and is not 0, and the configuration asks for relations in that direction between the two features.

Iff characterisation of every learned relation by independent counts.

*Scope:* Iff characterisation by independent counts, over every carrier with exact 0/1 arithmetic (reals, rationals); both columns categorical.

*Theorems:* `C59_learned`.

### C60 Learning from categorical columns does not fail (proved)

build_fcm on a rectangular dataset whose columns are categorical returns a map without raising, for the default configuration and for every configuration whose measures do not raise on the counts.

Progress: the invariant of C38 excludes every raise.

*Scope:* General form for measures that do not raise; default configuration over the reals.

*Theorems:* `C60_builds`, `C60_default`.

### C61 Refitting forgets the past (proved)

After any history of fit, predict and score calls, a fit that returns leaves the estimator with the features and the map that a new estimator with the same settings gets from the same data (up to the engine's private cache), and if the map has concepts every later prediction is the one the new estimator would make.

The refit is a function of the settings and the data: bisimulation with a new estimator.

*Scope:* Every history of fit, predict and score, every carrier. With no concepts (a table without columns) later predictions are not compared: the vectorised engine then reuses a cache of the emptied map.

*Theorems:* `C61_refit`.

### C62 A nearer centre gets a higher membership (proved)

In one iteration of fuzzy c-means, whatever the memberships before, a sample belongs more to the centre it is nearer to: if its distance to one new centre is smaller than to another, its new membership of the first is at least that of the second, for every fuzzifier above one.

Monotonicity of the negative power.

*Scope:* Real arithmetic. The first theorems are for one column (all the library itself clusters); C116/C117 for any number of columns.

*Theorems:* `C62_nearer`, `C116_nearer`.

### C63 The fuzzy partition coefficient is between 1/c and 1 (proved)

The fuzzy partition coefficient returned by cmeans for c clusters lies between 1/c and 1.

Cauchy-Schwarz for the lower bound.

*Scope:* Last conjunct of C46_cmeans. Real arithmetic. The first theorems are for one column (all the library itself clusters); C116/C117 for any number of columns.

*Theorems:* `C46_cmeans`, `C116_cmeans`.

### C64 RlFuzzyCmeans.predict picks the first nearest centroid (proved)

predict assigns each sample the smallest index among the centroids at minimal distance from it.

Argmin loop.

*Scope:* The first theorems are for one column (all the library itself clusters); C116/C117 for any number of columns.

*Theorems:* `C64_nearest`, `C64_predict`, `C117_predict`.

### C65 Centres of robust-learning c-means stay within the data (proved)

Every coordinate of every centre found by RlFuzzyCmeans lies between the least and the greatest value of that coordinate in the data.

Weighted means again, part of the C48 invariant.

*Scope:* Conjunct of C48_mixture. Real arithmetic. The first theorems are for one column (all the library itself clusters); C116/C117 for any number of columns.

*Theorems:* `C48_mixture`, `C117_run`.

### C66 Learning from any table succeeds (proved)

With inferred types, build_fcm returns a map without raising for every rectangular table of texts, truth values, integers and numbers, with every discretization strategy, for the default configuration and for every configuration whose measures return on non-negative counts that are not all zero.

Composition of C51 with the progress argument of C60.

*Scope:* Real arithmetic; the library's own discretization (max_clusters 7, 200 iterations) with each of the four strategies. The random start, the machine epsilon and the polynomial fit are parameters (Spec.Env). safe_default: the default measures qualify.

*Theorems:* `C66_learns`, `safe_default`, `C66_fits`, `C66_refits`.

### C67 Memberships of the samples of a numeric column (proved)

After learning, a numeric column is described by at least two clusters; every sample's memberships lie between 0 and 1, depend only on the sample's number, and add up to one, except for samples of at most one particular number, where they add up to at least 5/6.

Memberships of distinct values (C51) read back through `fuzzy_set` (C23) at listed values.

*Scope:* Real arithmetic, types inferred.

*Theorems:* `C67_memberships`.

### C68 Weights of a learned map (proved)

If the weight of a relation is a confidence (the default), every relation of a learned map either joins two values of one column with the exclusion weight, or has a non-zero weight between -1 and 1, positive if no sign function is configured.

Invariant of all relations added by `build_fcm` plus bounds of confidence (C37).

*Scope:* Real arithmetic, types inferred; no assumption on names.

*Theorems:* `C68_weights`.

### C69 The activation functions are the documented functions (proved)

biestate is 1 exactly on the positive numbers; threestate is 0 up to 1/3, 1/2 up to 2/3 and 1 above; saturation and relm (positive slope) cut the (scaled) input off at 0 and 1; gceq (lceq) gives 0 below (above) its weight and otherwise the input cut off at -1 and 1; sigmoid is the logistic function; sigmoid_hip is tanh of half the scaled input, constant below -500.

Model: the scalar functions of `Functions.lean` (functions.py:132-213). The thresholds are written out in the statements; proofs by case distinction over the reals, `sigmoid_hip` through the identity (1-e^-x)/(1+e^-x) = tanh(x/2). Added after a mutation of the boundary of `biestate` went unnoticed.

*Scope:* Over the reals.

*Theorems:* `C69_bistate`, `C69_threestate`, `C69_saturation`, `C69_relm`, `C69_gceq`, `C69_lceq`, `C69_sigmoid`, `C69_sigmoid_hip`.

### C70 Relation measures are the statistics they are named after (proved)

On the four joint counts of any non-empty sample: supp is the frequency of premise and conclusion, conf the frequency of the conclusion among the observations with the premise, lift that confidence relative to the frequency of the conclusion, odr the odds ratio and rodr the ratio of agreeing to differing observations; lift exceeds 1 exactly if the odds ratio does, which means positive association; pos_inf is positive, negative or zero according to which influence prevails and exists exactly if the premise was observed.

Model: `Relation.*` (functions.py:606-685). Spec: a sample is a list of pairs of truth values and the statistics are ratios of counts (`Spec.Sample.*`), so the four arguments are tied to one sample. Proofs: marginal identities between the counts, then field arithmetic.

*Scope:* Over the reals, for the counts of any list of observations.

*Theorems:* `C70_supp`, `C70_conf`, `C70_lift`, `C70_odr`, `C70_rodr`, `C70_lift_odr`, `C70_pos_inf`, `C70_pos_inf_raises`, `C70_bayes`, `C70_simple`, `C70_empty`.

### C71 An accepted add_concept stores what was asked for (proved)

If add_concept returns, settings, relations and all other concepts are unchanged and the named concept has value 0, trajectory [0], no outgoing relations, and the given activity, memory flag, excitation, type and activation function, each missing (or invalid) one being the default concept's; a fuzzy concept stores its description in increasing order and is evaluated on the scaled one.

Model: `FCM.addConcept`, `buildNode`. The statement lists every field of the stored concept and the frame; proved by running the program symbolically (`bind_okP`).

*Scope:* Every carrier, every map (reachable or not).

*Theorems:* `C71_added`, `C71_fuzzy`.

### C72 Stored names and stored functions agree (proved)

In every reachable state the decision function, the map's activation function and each concept's activation and excitation functions are the ones their stored names stand for, and each stored type is a valid one; if no call raised, every concept's argument vector holds the arguments of its function.

Invariant `Inv` (names and functions agree) preserved by every public operation also when it raises; `CleanInv` for histories without exceptions.

*Scope:* Every carrier, every reachable map; the argument vectors for histories without exceptions.

*Theorems:* `C72_names`, `C72_vector`.

### C73 Learning does not depend on the order of the rows (proved)

build_fcm on a rectangular table returns the same map, and describes the same features with the same concepts, for every order of the rows; it raises in one order if and only if it raises in every other. An estimator fitted on reordered rows has the same map and predicts the same labels for every input.

A relational Hoare logic for two programs (`Sim`: both return related results in related states, or both raise). The relation on generators: same map, same processed features, membership rows picked by the same row numbers. Each step of `build_fcm` respects it; the counts are sums over rows, and `np.unique` depends on the set of values only.

*Scope:* Real arithmetic (float addition is not associative, so float weights may differ in the last digits).

*Theorems:* `C73_order`, `C73_fit`, `C73_discretization`.

### C74 Repeating every row leaves the learned map unchanged (partial)

If every row of the table is repeated the same number of times, in any order, build_fcm returns the same map, and a fitted estimator predicts the same labels, whichever of the relation measures is used.

The simulation of C73 with `k` copies of every row: every count is multiplied by `k`, which a ratio of counts does not see. `C74_counterexample` runs the model on rationals with pos_inf, whose value is divided by `k`.

*Scope:* C74_full is the property; false for pos_inf, odr and rodr (C74_counterexample: pos_inf halves when every row is repeated). Holds for measures that are ratios of counts; C74_measures_partial: supp, conf, lift, bayes and simple are. Real arithmetic.

*Theorems:* `C74_ratios_partial`, `C74_measures_partial`, `C74_fit_partial`, `C74_counterexample`.

### C75 run_inference succeeds (proved)

When every concept is initialised, the functions of the concepts accept every input and the decision function is not EXITED, run_inference of the iterative engine returns normally; in particular it does for every map without fuzzy concepts whose activation parameters are proper.

A progress invariant `Live` (every concept has a value, its function accepts every input, every trajectory is non-empty) is preserved by each step; total correctness of the loop follows by induction on its fuel. `C75_succeeds` discharges the acceptance hypothesis over the reals by a case analysis on the activation functions.

*Scope:* C75_accepting: every carrier; C75_succeeds: maps over the reals without fuzzy concepts and with proper parameters. C75_counterexample: the condition on the functions cannot be dropped, a fuzzy concept without incoming relations divides by zero. Iterative engine.

*Theorems:* `C75_accepting`, `C75_succeeds`, `C75_counterexample`, `C111_returns`, `C111_raises`.

### C76 A change affects only the concepts downstream of it (proved)

Initialising a concept with another value, or adding a relation into it, changes the recorded activations of a concept only if there is a path of relations to that concept from the changed one: at every step both runs reach, all others have the same activations; with stop_at_stabilize=False their whole trajectories and final values are the same.

Spec: paths (`Spec.Influences`), sets of concepts closed under predecessors (`Spec.Upstream`), agreement of two networks on such a set (`Spec.AgreeOn`). Both runs are runs of the recurrence (C01); induction on the step.

*Scope:* Every carrier. Steps common to both runs; C76_length_differs shows that the run lengths, and with them the final values, of unaffected concepts may differ because the stability test looks at all concepts.

*Theorems:* `C76_upstream`, `C76_final`, `C76_init`, `C76_relation`, `C76_length_differs`.

### C77 Excitatory maps are monotone (proved)

In a map whose relations all have weights of at least 0 and whose activation functions are monotone, raising the initial activation of a concept, or adding a relation of weight at least 0 from a concept with non-negative activations, never lowers any activation at any step both runs reach; with stop_at_stabilize=False it never lowers a final value, whichever decision function is used.

Spec: `Spec.Rising` concepts, `Spec.Excitatory` networks. The step of the recurrence is monotone, so the order of two runs is kept by induction; each activation function is shown monotone by cases (`RisingArgs`, `callActv_rises`), each decision function by `decideBy_le`.

*Scope:* Real arithmetic, iterative engine.

*Theorems:* `C77_order`, `C77_init`, `C77_relation`.

### C78 Contracting maps forget their start and stop (proved)

If for every concept the slope of its activation function times the sum of the absolute weights of the relations from active concepts into it (each doubled for a PAPAGEORGIUS origin, plus 1 or 2 for memory) is at most q, then two runs of the same map differ after t steps by at most q^t times their greatest initial difference. With stop_at_stabilize, starts in [-1,1] and 2*q^n at most stability_diff, the run has at most n + 1 + extra_steps entries; for q < 1 and stability_diff > 0 there is such an n.

Spec: `Spec.load` and `Spec.Contracting` bound how far one update step of `Spec.next` can spread two states (`next_diff`, by induction over the relation list); induction over the steps gives the geometric bound (`run_diff`). The slopes of the activation functions are proved from their formulas in Lemmas/Lipschitz.lean. `Flat` states the condition in terms of the stored map; `C78_stops` combines the bound with the stopping rule of C03.

*Scope:* Real arithmetic, iterative engine.

*Theorems:* `C78_forgets`, `C78_stops`, `C78_bound`.

### C79 A contracting map has one equilibrium and inference finds it (proved)

If the q of C78 is below 1 the map has exactly one equilibrium, a state that the update step leaves unchanged; every run approaches it geometrically with ratio q; and with decision LAST, stop_at_stabilize, extra_steps of at least 2 and enough iterations allowed, every final value is within stability_diff / (1 - q) of it.

Spec: `Spec.Equilibrium` is a state that `Spec.next` maps to itself. Existence is Mathlib's contraction theorem on the finite product of reals, uniqueness and the distance of a nearly stable state are direct estimates (`near_equilibrium`).

*Scope:* Real arithmetic, iterative engine.

*Theorems:* `C79_equilibrium`, `C79_final`.

### C80 One round of fuzzy c-means is the textbook update (proved)

_cmeans0 returns as centres the means of the samples weighted with the memberships (normalised per sample, at least eps) to the power m, as objective the sum of these weights times the squared distances (at least eps), and, as long as no distance is below eps times another distance of the same sample, the memberships 1 / sum_k (d_i/d_k)^(2/(m-1)).

Spec: `Spec.weight` and `Spec.away` give the weights and distances by index, the results are finite sums over indices; the model's lists of rows are related to them entry by entry.

*Scope:* Real arithmetic, one-dimensional data (all the library clusters).

*Theorems:* `C80_centres`, `C80_objective`, `C80_memberships`.

### C81 The fuzzy c-means objective never increases (proved)

The objective history that cmeans returns has one value per round and never increases as long as no membership, distance or ratio of distances is raised to eps; if only distances are raised to eps it grows by at most n * eps^2 per round.

Two optimality lemmas: the memberships of the update minimise the weighted sum among all memberships summing to at least 1 (`best_memberships`, by Mathlib's weighted power mean inequality), the weighted mean minimises the sum of squares (`best_centre`). `Spec.Rounds` lists the rounds of a run, `Spec.Clear` says that a round clamped nothing.

*Scope:* Real arithmetic, one-dimensional data.

*Theorems:* `C81_round`, `C81_history`.

### C82 Concept names carry no meaning (proved)

If a client makes the same calls on a new map under other concept names (different concepts keeping different names), then at every moment the map reports under the new names the same values, the same recorded trajectories, the same relations, the same final states in the same order and the same stability, and every call raises for one client exactly when it raises for the other.

Renaming acts on the whole object (`FCM.rename`); every operation commutes with it (`Eqv`, one lemma per method, closed under loops and sequencing), so whole histories do (`runOps_rename`). The statement speaks only of the calls, renamed by `Op.rename`, and of what the API returns.

*Scope:* Every carrier, both engines. The text of an exception may contain the name, so only whether a call raises is compared. C82_collision: two concepts sharing a new name is excluded for a reason.

*Theorems:* `C82_observed`, `C82_raises`, `C82_collision`.

### C83 Loading uses the public API and a second round trip loses nothing (proved)

A map read by from_json is a map that public calls without exceptions build, each concept being added before it is mentioned; and although to_json drops properties, it drops them only once: exporting the map that from_json read from an exported document never fails, and reading that export gives the same map again.

`C83_api` and `C83_careful` read the calls off `fromJson` (`loadConcepts_clean`, `loadRelations_clean`). `C83_idempotent`: every concept that from_json creates from an exported document is `Plain` (all its fields are among those to_json writes), so the lossless round trip of C28 applies to the loaded map; what that round trip resets is already reset.

*Scope:* Every carrier. C83_careful needs distinct ids in the document (a repeated id replaces the concept). The maps compared are the whole objects, including the settings.

*Theorems:* `C83_api`, `C83_careful`, `C83_idempotent`.

### C84 A list of rows is the table with positional column names (partial)

fit, predict and score treat a list of rows (and a list of target values or rows) exactly like the data frame with the same columns named by their positions, the target columns being numbered on from the input columns.

Model: `Table`, `npArray`, `npMatrix`, `NdArray.toFrame`, `validateDual`, `fitTable`, `predictTable`, `scoreTable` (Model/Frames). Spec: `Spec.rowsOf` transposes columns, `Spec.named` names them. Reading a column back from the row-ordered buffer (`stride_back`) is proved once and used for the four cell types (`Kind`).

*Scope:* C84_full is the property; false for columns of different types, which np.array turns into one type (C84_counterexample: a truth value beside an integer). Proved when all input columns have one type and all target columns have one type. Every carrier.

*Theorems:* `C84_rows_partial`, `C84_counterexample`, `C84_common`, `C84_kinds`.

### C85 The columns of y are the targets (partial)

After fit(x, y) every concept of a column of y is a target concept (decision or regression) and every concept of a column of x is an input concept (simple or fuzzy).

Spec: `Spec.role`, `Spec.Plays` (the types of all concepts of a column). From what `fit` leaves of each column (`fit_fitted`, C42); `C85_shared` is the general form of the failure.

*Scope:* C85_full is the property; false when a column of y has the name of a column of x: the roles are swapped (C85_shared, C85_counterexample). Proved for different names; positional names never clash.

*Theorems:* `C85_roles_partial`, `C85_shared`, `C85_positional`, `C85_counterexample`, `C85_names`, `C85_predict`.

### C86 Which tables the estimator accepts (partial)

A dictionary of columns is treated like the data frame with those columns; fit learns from any data frame or rectangular matrix with any columns as targets, refuses everything else and then leaves the estimator unchanged; the rows of a data frame are predicted cell by cell.

Spec: `Spec.Matrix`, `Spec.Columns` say which inputs are tables. Case analysis on the kind of input (`validate_cases`); `C86_cells` is a congruence: the conversion of integers to floats in `iterrows` does not change what `init_concept_by_feature_data` does.

*Scope:* C86_full is the property; false: fit and score refuse a dictionary as x (AttributeError, C86_counterexample). The rest is proved.

*Theorems:* `C86_dict_partial`, `C86_accepts`, `C86_predicts`, `C86_cells`, `C86_counterexample`, `C86_unfitted`, `C86_scores`.

### C87 plot_execution draws the recorded trajectories (partial)

plot_execution draws one curve for each concept of the requested type ("target": decision and regression concepts, "all": all concepts), showing the first limit recorded values of the concept, or all of them if limit is not positive.

Model: `FCM.plotExecution` (Model/Plot), with the explicit index loop. Spec: `Spec.shown`, `Spec.Shown`.

*Scope:* C87_full is the property for all histories; false after a rejected add_concept. Proved for histories without exceptions. Every carrier.

*Theorems:* `C87_curves_partial`, `C87_counterexample`.

### C88 plot_topology draws the relations (partial)

The graph drawn by plot_topology has exactly the concepts of the map as nodes and joins two of them exactly if there is a relation from one to the other.

Model: `FCM.plotTopology` builds the networkx graph edge by edge. By induction over the edges added, with the invariant of C16 (outgoing lists agree with the relation list).

*Scope:* C88_full is the property for all histories; false after a concept is added again. Proved for histories that add no concept twice and in which add_relation does not raise. Every carrier.

*Theorems:* `C88_graph_partial`, `C88_counterexample`.

### C89 The silhouette score is the fuzzy silhouette (partial)

fuzzy_silhouette rates a clustering by the fuzzy silhouette: the mean of (b - a) / max(a, b) over the samples, weighted with the difference of the two highest memberships (to the power alpha), where a is the distance of the sample to the members of its own cluster and b that to the members of the nearest other cluster. The score lies in [-1, 1] and no sample makes it divide by zero.

Spec: `Spec.TopTwo` (the two highest memberships), `Spec.apart` (mean distance to the members of a cluster), `Spec.silhouette`, `Spec.fuzzySilhouette` as finite sums. The loops of the model are evaluated to those sums. Counterexample: two samples with tied memberships.

*Scope:* C89_full is the property; false when the two highest memberships of a sample are equal (C89_counterexample: the search for the second cluster then fails or takes the wrong one). Proved when every sample has a unique highest membership. Real arithmetic.

*Theorems:* `C89_silhouette_partial`, `C89_counterexample`.

### C90 The number of clusters is the best rated (proved)

With the strategies cmeans-sil and cmeans-cfe the number of clusters of a numeric column is the one with the highest score among 2, …, max_clusters, the smallest one if several have it; if no number has a positive score, the column is split into three forced clusters.

Spec: `Spec.BestCount`, `Spec.NoCount`. Loop invariant of the search for the highest score; `C90_discretize` composes it with `fuzzy_feature_discretization`.

*Scope:* Every carrier with a linear order. C90_best: the selection, for any scoring function; C90_discretize: the effect on a column.

*Theorems:* `C90_best`, `C90_discretize`.

### C91 The cfe score is the combined fuzzy entropy (partial)

cfe rates a clustering by separation times dispersion between clusters over fuzziness times dispersion within clusters: separation is the mean symmetric fuzzy cross entropy of two clusters, fuzziness the normalised entropy of the memberships, the dispersions weighted sums of squared distances. Fuzziness lies in (0, 1]; separation is not negative and zero exactly if all clusters have the same memberships.

Spec: `Spec.divergence`, `Spec.separation`, `Spec.fuzziness`, `Spec.between`, `Spec.within`, `Spec.spread`, `Spec.combined`. Bounds by Mathlib's binary entropy and by the sign of (p - q)(log p - log q). Counterexample: three samples.

*Scope:* C91_full is the property; false (C91_counterexample): the dispersion within a cluster multiplies every membership with the squared norm of the whole column instead of the squared distance of the sample. C91_entropy_partial states what is computed, C91_bounds proves the bounds. Real arithmetic.

*Theorems:* `C91_entropy_partial`, `C91_bounds`, `C91_counterexample`.

### C92 What fuzzy c-means returns (proved)

cmeans does rounds of the update until a round changes the memberships by less than error (Frobenius norm), at most maxiter - 1 rounds, and returns the centres, the memberships and the distances of the last round, the objective of every round, the number of rounds and the partition coefficient (the mean sum of squared memberships).

Spec: `Spec.moved` (Frobenius distance), `Spec.Unsettled`, `Spec.Rounds` of C46/C80, `Spec.after`. Induction over the rounds (`cmLoop_run`).

*Scope:* Real arithmetic, one-dimensional data.

*Theorems:* `C92_run`.

### C93 The rounds of robust-learning c-means (proved)

rl_fuzzy_cmeans starts with every sample as its own cluster and does rounds until one cluster is left or the centres of the same number of clusters move by less than error. A round computes memberships as Gaussians of the distances weighted with the proportions of the clusters, new proportions from the mean memberships and the entropy (base 2) of the old ones, drops the clusters with a proportion below 1/n, scales the rest to sum 1 and moves the centres to the weighted means. The three rates are exp(-t/10), exp(-t/100) and the minimum of two bounds, zero from round 100 on when no cluster was dropped.

Spec: `Spec.rlShare`, `Spec.rlWeight`, `Spec.rlKept`, `Spec.Highest`, collected in `Spec.RlStep`; `Spec.RlStart`. Every loop of the model is evaluated to a list over indices; the run by induction with the invariant of C48 (no division by zero, no logarithm of zero).

*Scope:* Real arithmetic, one-dimensional data. The statement has the logarithm to base 2 in the new proportions, as in the code; the memberships and the third rate use the natural one.

*Theorems:* `C93_round`, `C93_run`.

### C94 When the vectorised engine returns (proved)

With debug off, run_inference returns exactly if for some number of states l at most max_iter, larger than extra_steps, the sum of all activations changed by less than stability_diff in each of the last extra_steps steps; the recorded trajectories are then the first l states of the recurrence (one fewer when l = max_iter) for the least such l; otherwise the buffer is left. A map whose slopes times loads are at most q <= 1 returns from every start in [-1,1] once concepts * 2 * q^n < stability_diff for some n with n + extra_steps + 1 <= max_iter. (With EXITED the number of recorded states must also differ from extra_steps + 1: a map at rest from the start raises.)

Spec: `Spec.Orbit` (endless run of the recurrence), `Spec.Level` (the sum changed by less than the threshold), `Spec.StopsAt` of C03. The engine's columns are the orbit (`orbit_cols`, from the step theorem of C11); the loop either meets the stopping rule or reaches the end of the buffer. Existence of the orbit over the reals by total correctness of one step (`next_real`). `C94_decides` covers EXITED: the decision is defined unless `extra_steps + 1` states are recorded (`decideBy_defined`).

*Scope:* C94_records and C94_returns for every lawful carrier, given the endless run of the recurrence that never takes the value 2 (C13 shows that this value is special); C94_real shows that over the reals this run exists and stays in [-1,1] when the functions have proper parameters; C94_contracting for contracting maps.

*Theorems:* `C94_records`, `C94_returns`, `C94_real`, `C94_contracting`, `C94_decides`.

### C95 A fitted map has the settings given to the estimator (proved)

FcmEstimator(...) is constructed exactly if the names of the decision, excitation and activation function are known ones. Whatever fit, predict and score calls follow, also ones that raise, its map keeps the given max_it, extra_steps, stabilize, stability_diff, decision function and engine. After a fit that returned every concept is active and has the given excitation function and memory setting; the concepts of a discrete column have the given activation function with its arguments, those of a continuous column the function fuzzy.

Stated with the arguments of the constructor and the names of columns; no new spec functions. `EstOk.settings` (all calls keep the settings) and `Kin` (a concept of the fitted map equals the added one up to relations and value).

*Scope:* Every carrier. C95_accepts: the constructor; C95_settings: the map after any history; C95_concepts: the concepts after a fit.

*Theorems:* `C95_accepts`, `C95_settings`, `C95_concepts`.

### C96 Which values a row to be predicted may have (proved)

After fit, init_concept_by_feature_data accepts a value exactly if its column occurred in the training data and the value is a number for a continuous column, or a text, an integer, a truth value or a float with an integer part for a discrete one; any other value raises 'Cannot init concept' and leaves the map as it is. A value of a discrete column that names no concept changes nothing. A number that is not negative sets each cluster of a continuous column to the membership interpolated between the neighbouring training values.

Spec: `Spec.Usable` (a value for a kind of column), `Spec.Interp` of C23, `Spec.DiscOf` of C66. `fitted_node`: every concept of the fitted map has the given function or a well-formed fuzzy description, so that `fuzzySet` is total on it; the library's discretization gives ascending values (`standard_disc`).

*Scope:* C96_refused and C96_ignored for every ordered carrier; C96_accepts and C96_number in real arithmetic with the library's own discretization. The default activation function must not be "fuzzy" (such concepts have no description and cannot be initialised).

*Theorems:* `C96_accepts`, `C96_refused`, `C96_ignored`, `C96_number`.

### C97 When predict returns (proved)

With vectorized_run=False, a decision function LAST or MEAN, an activation function with proper arguments, and continuous columns whose incoming weights do not sum up to 0, predict returns labels exactly if every value of every row can be used (C96); otherwise it raises 'Cannot init concept'.

Spec: `Spec.UsableRow`. Composition: clearing gives every concept a recorded value, C96 initialises the row, `run_live` of C75 runs the map, the names of the concepts can be split (C41), every group of outputs is non-empty. Induction over the rows with the invariant of C43.

*Scope:* Real arithmetic, iterative engine (the vectorised engine also needs the map to settle, see C94). The conditions on the settings are hypotheses of the theorem.

*Theorems:* `C97_predicts`.

### C98 load_dataset recodes text and small integer columns (proved)

With factorize=True load_dataset replaces a column by codes if its first value is text, or an integer and the column has at most max_int_uniques different values or fewer different values than int_factor times the rows; every other column is kept as read. The code of a value is the number of different values that occur before it, -1 for a missing value. Different rows stay different, repeated rows are dropped. A csv file without rows cannot be recoded.

Spec: `Spec/Recode.lean` (`Spec.Extension`, `Spec.coded`, `Spec.code`, `Spec.entries`), all counted on the rows of the file. `pandas.factorize` is modelled with missing values; the position of a value among the distinct ones is the number of distinct values before it (`idxOf_eraseDups`). `loadDataset_csv`: without recoding the model is the one of C57.

*Scope:* Every carrier and value type. As in C57 a column called class or a literal is needed (hypothesis hsum). C98_distinct: if None is the only missing value.

*Theorems:* `C98_loads`, `C98_distinct`, `C98_no_rows`, `C98_lines`.

### C99 load_dataset reads arff files (partial)

load_dataset decides by the extension of the path and loads every decoded arff file with distinct names and complete rows; the values are those of the file, text that reads as a literal replaced by the literal. Paths with another extension, unreadable files and incomplete rows raise 'Unknown dataset format'.

Spec: as C98. The library `arff` is a parameter: names and rows, or failure. Induction over the rows with the variable `last_feat`; `extension_eq` relates the two splits of the path to the spec.

*Scope:* False as stated (C99_counterexample): without a column called class and without text that reads as a literal the printed summary raises KeyError; numbers are already decoded and do not count. C99_loads_partial proves the rest, C99_numbers the failure, C99_rejects what is rejected.

*Theorems:* `C99_loads_partial`, `C99_numbers`, `C99_rejects`, `C99_counterexample`.

### C100 build_fcm extends a given map (partial)

build_fcm(dataset, fcm=m) learns beside the concepts of m exactly what it would learn into a map with the settings of m and no concepts, and raises exactly if that would raise. The concepts of m, their trajectories and the relations between them are unchanged, and no relation joins an old and a new concept; with stop_at_stabilize off an inference in debug mode gives the old concepts the trajectories and values they have without the learned part.

Spec: `Spec.blank`, `Spec.Unlike`. Lemmas/Beside.lean: every step of the construction run on a map beside other concepts gives the same outcome and the same new part (`Beside`, a simulation closed under the combinators). C100_runs composes with the frame theorem of C76.

*Scope:* C100_full is the property; false when a concept of the given map has the name of a value of the table: it is replaced and loses its relations (C100_counterexample). Proved when no such name is taken. Every carrier.

*Theorems:* `C100_extends_partial`, `C100_keeps`, `C100_runs`, `C100_counterexample`.

### C101 reset() makes a generator as good as new (partial)

After any sequence of learning, use of the learned map and earlier resets that all returned, reset() returns; the generator then learns from every table exactly what a newly created one would. Maps returned earlier are left as they are.

Spec: `Spec.GenLife`. Induction over the life shows that the map is one that `reset_execution` accepts (`CleanInv`); a new generator and a reset one then agree on everything `build_fcm` reads.

*Scope:* C101_full is the property; false: the generator shares the map it returned, and reset() empties it (C101_counterexample, C101_emptied). The rest is proved (C101_reset_partial). Every carrier.

*Theorems:* `C101_reset_partial`, `C101_emptied`, `C101_counterexample`.

### C102 fit can be repeated (partial)

Once fit has returned, and whatever predict and score did since, returned or raised, a further call of fit returns or raises the same exception exactly as it would on a new estimator with the same settings.

Spec: `Spec.Ready` (C43), `Spec.Went`. Lemmas/Restart.lean: the iterative engine never loses the first value of a trajectory, even when it raises (`Filled`); a run that returns leaves one (`Startable`); the vectorised engine keeps it if it is not the filler 2 (`Headed`, `stored_headed`). Then `reset` succeeds and `buildFcm_rel` of C61 gives equal outcomes. C66_refits composes with C66.

*Scope:* C102_full is the property for every discretization; false (C102_counterexample): two columns whose concepts clash can start a trajectory with the value 2, the vectorised engine then stores empty trajectories and the next fit raises IndexError. Proved with vectorized_run=False; with either engine if all calls since the last fit returned; and in real arithmetic with either engine, the library's own discretization and readable names, whatever the calls did.

*Theorems:* `C102_iterative_partial`, `C102_returned_partial`, `C102_own_partial`, `C102_counterexample`.

### C103 The order of the columns does not matter (proved)

Learning from the same columns in another order, with the set of processed features iterated in any other order, gives a map with the same settings, concepts and relations (exact arithmetic, names that can be read back); estimators fitted on the two tables (vectorized_run=False) predict the same labels for every row and have the same score, and in real arithmetic one of them returns exactly when the other does.

Spec: `Spec.Reordered`, `Spec.Readable` (C45). From the description of a finished build (`Built`, C46): the features are functions of the columns (`FeatureOf.func`), a pair of columns gives the same relations whichever comes first (`Goes.swap`, from C36_swap), so the relations are permutations of each other and the weight sums agree (`Lemmas/Permuted.lean`). Lemmas/Mirror.lean runs `clear_execution`, the initialisation of a row and the engine side by side (`Mirror`, `Recs`, `Akin`); labels are read per feature in an order fixed by the feature (`Built.same_order`, `Lemmas/Heads.lean`). C103_real composes with C66 and C97. C103_vectorised (Props/VecOrder.lean) uses that a fitted map repeats no relation (`fit_single`), so that the map the vectorised engine follows (C105) is the same up to order (`Mirror.next_vector`), and C106.

*Scope:* Every carrier with exact sums and commutative multiplication; C103_real and C103_vectorised in real arithmetic. Columns whose names can be read back (Spec.Readable); build_fcm into a new map or a given map without concepts. C103_predict and C103_score are about the iterative engine; C103_vectorised about the vectorised one, over the reals.

*Theorems:* `C103_learn`, `C103_fit`, `C103_predict`, `C103_score`, `C103_real`, `C103_vectorised`.

### C104 Every strategy clusters as documented and unknown strategies are refused (proved)

With cmeans-gap a numeric column gets one cluster per change point of the fitted curve except the last, with the memberships fuzzy c-means finds from the distances to these points; with rl-cmeans it gets the components that are left and their memberships; with fewer than two clusters three are forced.  A strategy of any other name makes learning raise for every table with a numeric column of ten or more values, and does not matter for any other table.

Case analysis of `discretize` (`discretize_cases`); induction over the columns shows that a table is learned only if every numeric column of many values could be discretized (`buildFcm_disc`) and that the discretization is not consulted for the others (`buildFcm_any`).

*Scope:* Every carrier. The fitted curve (np.polyfit) is a parameter; its change points are described by C50_points, the clustering by C47-C48 and C92-C93, the forced clusters by C49; the strategies cmeans-sil and cmeans-cfe by C90.

*Theorems:* `C104_gap`, `C104_rl`, `C104_unknown`, `C104_build`, `C104_fit`, `C104_same`.

### C105 What the vectorised engine computes on every map (proved)

With debug off, every map whose functions have well-formed arguments - also one with inactive concepts, repeated relations or fuzzy concepts whose relations do not sum to a positive number - follows the synchronous recurrence of the following map: all concepts influence their neighbours, inputs are divided only by positive sums, and of several relations between the same concepts in the same direction the last one counts. run_inference returns exactly if the sum of the activations of that recurrence changed by less than stability_diff in extra_steps consecutive steps within max_iter states, and the recorded trajectories are then its first states. Where all concepts are active, no divisor is 0 or negative and no relation is repeated, that map is the map itself. (With EXITED the number of recorded states must also differ from extra_steps + 1: a map at rest from the start raises.)

Spec: `Spec.Net.vector` (Spec/Vector.lean). The matrix filled relation by relation equals the one filled with the last relation for each pair (`fillMatrix_latest`), so one step of the engine is the recurrence of that map (`vecNode_vector`); the runs follow as in C94 (Lemmas/VecRuns.lean). C94 is the special case of C105_same. `C105_decides` covers EXITED as well; `C105_rest`: a map at rest from the start raises with EXITED (case Ex.stillE).

*Scope:* Exact arithmetic (every Exact carrier); C105_real in real arithmetic without further assumptions. The recorded states are one fewer when the engine stops at max_iter, as in C13. A state in which the first concept is at the filler value 2 is excluded (C13_two).

*Theorems:* `C105_step`, `C105_records`, `C105_returns`, `C105_real`, `C105_same`, `C105_decides`, `C105_rest`.

### C106 When predict returns with the vectorised engine (proved)

After fit with vectorized_run=True, predict returns for a table of rows exactly if every row uses only columns of the fitted table, with numbers in the numeric ones, and the synchronous recurrence of the learned map, started from the activations the row sets, changes the sum of the activations by less than stability_diff in extra_steps consecutive steps within max_iter states. The activations a row sets lie in [-1,1] and the recurrence stays there, so a stability_diff above twice the number of concepts is always met.

Spec: `Spec.Settles`, `Spec.RowStart`, `Spec.UsableRow`. A row sets activations in [-1,1] (`started`, from C96); the functions of a fitted map have well-formed arguments (`fitted_of`), so C105_real describes the run; rows are handled one after the other from maps that agree in everything but the record (`Calm`).

*Scope:* Real arithmetic, the library's own discretization (Spec.Env), readable names. Decision functions LAST and MEAN (EXITED also needs a number of recorded states other than extra_steps + 1, C105_decides); a fitted map without concepts is excluded. The engine with vectorized_run=False is C97.

*Theorems:* `C106_predicts`, `C106_orbit`, `C106_coarse`.

### C107 What a row to be predicted sets, and in which order its cells come (proved)

predict gives the initial activation 1 to the concept of a categorical value, the interpolated membership to the clusters of a nonnegative number, and 0 to every other concept of the map. If the separator does not occur too early in the texts of the cells, permuting the cells of each row changes neither what predict returns or raises nor the map left behind, with either engine; without that condition the predicted label can change (a value of one column can address a cluster of another column).

Spec: `Spec.Looks`, `Spec.Stands`, `Spec.LegibleRow`, `Spec.Sets`. Setting a row is entering a list of (concept, value) pairs (`initRow_moves`, Lemmas/Moves.lean); pairs of different columns name different concepts if the texts are legible (`moves_agree`, from C41), and pairs that agree can be entered in any order (`enter_perm`). C107_any is the claim without the condition on the texts; C107_counterexample refutes it with a column called _b and the value 0_ of a column called b.

*Scope:* C107_order: every carrier with ordered arithmetic, both engines, rows that are Spec.LegibleRow. C107_counterexample shows that the condition on the texts is needed: the label changes from no to yes. C107_start: real arithmetic, Spec.Env; a negative number in a numeric column is covered by C96 only.

*Theorems:* `C107_order`, `C107_start`, `C107_counterexample`.

### C108 What fit and predict draw (proved)

predict(plot=True) returns or raises exactly what predict does and leaves the same estimator; it writes one picture per row, each under the name fcm.png, with one curve per target concept. fit(plot=True) returns exactly if fit does and every numeric column gets at most ten clusters, which only the strategy rl-cmeans can exceed; it then leaves the same estimator and writes one picture per numeric column, named after the column, with one curve per cluster. Curves left on the figure by a fit that failed while drawing end up on the next picture.

Model/Draw.lean adds the state of pyplot (open figure, files) to fit and predict. Spec: `Spec.written`, `Spec.pictures`, `Spec.Drawable`, `Spec.RowCurves`. Drawing a column is decided by induction over its clusters (`plotLoop`); `buildFcmDrawn_iff` separates drawing from learning column by column; `plot_execution` cannot raise where `get_final_state` has returned (`finalState_types`). The bound of seven clusters comes from C50, C90 and C104 (`few_clusters`).

*Scope:* C108_fit, C108_predict and C108_pictures for every carrier and discretization. matplotlib is reduced to the curves of the open figure and the files written; colour names and axes are left out. C108_counterexample and C108_leak show the limit of ten colours and what a failed drawing leaves behind, with a discretization into eleven clusters given as a parameter.

*Theorems:* `C108_fit`, `C108_predict`, `C108_pictures`, `C108_standard`, `C108_always`, `C108_counterexample`, `C108_leak`.

### C109 With the vectorised engine too changes spread, keep their direction and are forgotten as the relations say (proved)

With vectorized_run=True: an init_concept or add_relation affects only the concepts that can be reached from the changed one along relations; in a map whose relations all excite, a higher start never lowers an activation; in a map whose slopes times summed absolute weights (inactive concepts included) stay below q < 1, two starts differ by at most q^t times their initial distance after t steps, there is exactly one equilibrium and what is recorded approaches it, and the engine returns if the bound on the iterations leaves it enough steps.

Spec: `Spec.Net.vector` (C105), `Spec.Upstream`, `Spec.AgreeOn`, `Spec.Excitatory`, `Spec.Contracting`, `Spec.Equilibrium`. What the engine records is a run of the recurrence of the map as it sees it (`vec_run`, from C105); keeping only the last of parallel relations commutes with restricting to the relations into a concept (`latest_into`) and cannot raise the load (`sublist_sum`), so that the arguments of C76-C79 apply to that map.

*Scope:* Real arithmetic; maps that are Vectorised (no earlier exception, well-formed parameters, start in [-1,1]). As in C76 the comparison is step by step: runs may have different lengths because the stability test looks at all concepts. The iterative engine is C76-C79.

*Theorems:* `C109_upstream`, `C109_init`, `C109_relation`, `C109_order`, `C109_forgets`, `C109_equilibrium`, `C109_returns`.

### C110 Which calls are accepted (proved)

Whether a call returns or raises is decided by its arguments and by a small part of the map, as follows. The constructor and set_map_decision_function: known names. add_concept: known excitation; a known function with numeric arguments, or none and numeric arguments of the default function; a dictionary, if given, holds a non-empty table when the type (the argument if valid, else the default type) is FUZZY or REGRESOR and only numbers otherwise; a FUZZY or REGRESOR concept that takes its type from the default needs the default's table. set_concept_properties: a known concept, known names, numeric arguments. set_default_concept_properties: excitation and type given and known, and a table for FUZZY. set_map_activation_function: a known name, and numbers if some concept uses the map's function. add_relation: nothing to fit, or a fittable slope. init_concept: a known concept unless its presence is not required, and a table if its function is the fuzzy one. reset_execution, clear_execution, clear_all and get_final_state always return; is_stable returns if no step was made or every concept has two recorded values. from_json: every required key present, known names, numbers as arguments, and no initial value for a concept with the fuzzy function.

Spec: `Spec.KnownExcitation`, `KnownDecision`, `KnownActivation`, `KnownType`, `Numbers`, `HasTable`, `NewAccepted`, `ChangeAccepted`, `DefaultAccepted`, `Loads`, `Fittable` (literal lists of names, no functions of the model). Each call is a sequence of steps over one node; `Returns` and `returns_bind` reduce it to its steps, each decided by cases. That a default concept with a table also has its bounds is an invariant of every reachable map (`Reachable.bounded`). from_json is decided concept by concept (`accepts_iff`, `loadConcepts_iff`); its relations cannot fail because a loaded map has no inclination to fit.

*Scope:* Equivalences. C110_add_concept, C110_set_concept, C110_set_default for every totally ordered carrier; tables with values and memberships of different number are excluded (the compiled sort does not check bounds). C110_relation and C110_init in real arithmetic; C110_init for stored tables of at least two points. Which exception is raised is not part of the claim, nor is run_inference (C75).

*Theorems:* `C110_new`, `C110_add_concept`, `C110_set_concept`, `C110_set_default`, `C110_decision`, `C110_activation`, `C110_relation`, `C110_init`, `C110_clear`, `C110_stable`, `C110_final`, `C110_from_json`.

### C111 When the iterative engine returns (proved)

With debug on, run_inference returns exactly if the synchronous recurrence, started in the initial activations, is defined for as many states as the stopping rule asks for, and the decision function is not EXITED or the number of states is not extra_steps + 1. It raises exactly if a state before the end has a concept whose activation function is not defined at its input, or EXITED is left without a value. Two maps with the same concepts, settings, initial activations and recurrence either both raise or both return, with the same trajectories and final values; so do maps that differ in the order of their add_relation calls.

Spec: `IsRun`, `StopsAt`, `Quiet` (as in C01, C05); `Runs`, `Ends`, `Stuck`, `TooShort` only combine them. `iterLoop_returns`: while the loop's states are the prefix of a run that is not yet to be stopped, the step succeeds (`stepOnce_next`: gathering cannot fail when relations have known ends and concepts are complete, and each activation is the one of the recurrence), by induction over the fuel with the counting invariant of C05; the converse is C01. `runs_on` extends a run until it is stopped or stuck; `ends_by` bounds the length. `decideBy_defined` decides when the decision functions are defined.

*Scope:* Iterative engine, equivalences, every arithmetic (C15_returns: exact arithmetic). Which exception is raised is not part of the claim. The vectorised engine is C94 and C105.

*Theorems:* `C111_returns`, `C111_raises`, `C111_depends`, `C111_records`, `C15_returns`.

### C112 Replacing concepts by their opposites (partial)

Replace some concepts of a map by their opposites: negate their initial activation (or take 1 - a for a PAPAGEORGIUS concept with sigmoid), and negate every relation with exactly one end among them. If the replaced concepts use sigmoid_hip, or sigmoid with PAPAGEORGIUS, the run of the new map is the run of the old one with the opposite values for these concepts and the same values for all others: the iterative engine returns whenever it did before, after the same number of steps, and the decided values are opposite as well. The vectorised engine records opposite values step by step, and if all concepts are replaced it also returns with the same number of steps.

Spec: `Spec.turned` (-a or 1 - a), `Spec.turn`, `Spec.opposed`, `Spec.inflow`, `Spec.Turnable`, `Spec.Opposite` (on the networks of C01). One step commutes with taking opposites (`next_turn`): contributions change their sign exactly for the replaced targets (`along_turn`), sums are odd (`total_sgn`), inputs stay within three times the inflow plus one (`inputs_le`), and there the activation functions are odd about 0 or 1/2 (`callActv_odd`). Induction over the run (`run_turn`); differences keep their absolute value, so that the same states are quiet (`quiet_turn`) and C111 gives the outcome; LAST and MEAN commute with affine maps (`decideBy_affine`). Vectorised: the same over the map that engine sees (C105), `orbit_turn`; C112_all compares the sums its stopping rule looks at. The counterexample: one concept, lambda 1000, started at 1 and at -1.

*Scope:* False without a bound on the exponent (C112_counterexample): sigmoid_hip cuts the exponent off at 500 on one side only. Proved for lambda times three times the absolute inflow plus 3 at most 500 (C112_turnable); sigmoid with PAPAGEORGIUS needs no bound. EXITED is excluded where concepts are replaced, as its values are not affine in the trajectory. With the vectorised engine the number of steps depends on the sum of all values, so that it is only kept if all concepts are replaced; otherwise the values agree step by step.

*Theorems:* `C112_iterative_partial`, `C112_vectorised_partial`, `C112_all_partial`, `C112_turnable`, `C112_counterexample`.

### C113 The order of building calls (proved)

Two calls that build a map are independent if they are about different concepts (add_concept, set_concept_properties, init_concept), are both relations, are a relation and a concept added that is not one of its ends, are a relation and the properties or initial value of any concept, or if one of them sets one of the settings (max_iter, stop at stabilize, stability difference, debug, decision function) and the other does not set the same one. Exchanging neighbouring independent calls, any number of times, changes nothing: each call still returns or raises what it did, the map holds the same concepts, relations and settings, and a run gives the same trajectories and final values (with the vectorised engine, if there are no parallel relations). A relation added before one of its ends is lost without an exception, and so does not commute with adding that concept.

Spec: `Spec.about`, `Spec.knob`, `Spec.Independent`, `Spec.Rearranged` (exchanges of neighbours), `outcomes` (calls with what they return or raise). Refinement: the content of a map (`FCM.gist`: settings, the multiset of relations, per concept its data with the multiset of its arcs, per concept its record) forgets the order of insertion, and each building call acts on it (`Op.run_gist`) as a local action at a concept, as a relation or as a setting; these kinds commute (`local_local`, `local_rel_apart`, `local_rel_framed`, `rel_rel`, ...: exact addition for the sums of weights). Induction over the exchanges (`rearranged_gist`). Equal contents are `Mirror`s, for which C111_depends and the argument of C15 with C105_returns give equal runs.

*Scope:* Exact arithmetic (every Exact carrier); C113_vectorised in real arithmetic, without parallel relations (there the last one wins, C15). C113_block: calls that are pairwise independent can be made in any order. Maps with an inclination to fit are excluded, as their add_relation changes the slope of the target.

*Theorems:* `C113_outcomes`, `C113_iterative`, `C113_vectorised`, `C113_block`, `C113_early`.

### C114 Inference in floating-point arithmetic (proved)

However results are rounded, as long as rounding is monotone, odd and exact on small integers (doubles with rounding to nearest even are of this kind): every value either engine records, and every final value, is NaN or a number in [-1,1], whatever the weights (infinities and NaN included) and slopes. If the weights are numbers of at most a third of the exactly represented integers (2^53 for doubles), the functions are not fuzzy and the slopes are numbers other than 0, NaN does not occur, although sums may overflow. The iterative engine returns whatever the weights and values. With larger weights NaN does occur: two relations of weights 2^1023 and -2^1023 from the same PAPAGEORGIUS concept.

Model: the same polymorphic model, on the carrier `Ieee` (NaN, two infinities, reals rounded after each operation by an arbitrary `Format`); nothing of the model is changed. Spec: `Within` (NaN or in an interval), `Among`, `SoundArgs`, `SteadyArgs`. Each activation function ends in a clamp, in a quotient whose numerator is at most its denominator, or in an interpolation between memberships; monotone rounding that is exact on small integers keeps the bounds (`add_within`, `div_among`, `sigmoid_within`, `sigmoidHip_within`, `relm_within`, `fuzzySet_within` via the bracketing of `searchSorted`, ...), NaN inputs give NaN or a constant. Both engines record only starting values and results of activation functions (`IsRun`; `vec_all`). The mean: partial sums of k values stay in [-k,k] (`fold_within`). No NaN: contributions are finite (`product_fin`), sums of numbers may become infinite but not NaN (`fold_num`), a finite non-zero slope times an infinity is an infinity (`slope_num`), sigmoid_hip's exponent is at most 500 (`exp_small`). `Binary64`: the magnitudes m * 2^e form a finite set, rounding goes to the nearer neighbour, with 2^1024 standing for infinity; monotone because neighbours are (`nearest_mono`).

*Scope:* For every Format (Lemmas/Floating.lean); Binary64.format (Lemmas/Binary64.lean) is IEEE 754 binary64 with ties to even and a correctly rounded exponential. The final value needs a trajectory of at most 2^53 entries. Fuzzy concepts: memberships in [0,1] over ascending values, and they are excluded from the NaN part. Simplifications: zeros have no sign; sums are made from left to right (Python from 3.12 compensates the errors of sum, BLAS may order sums differently; neither leaves [-1,1], as the activation functions come last).

*Theorems:* `C114_iterative`, `C114_vectorised`, `C114_no_nan`, `C114_no_nan_vectorised`, `C114_returns`, `C114_nan`.

### C115 Rounding errors stay small (proved)

Run a map with saturation, sigmoid, sigmoid_hip or relm functions, weights of at most W and initial values in [-1,1] once in floating-point and once in real arithmetic. If every operation is accurate to a relative error ε (2^-53 for doubles), one step introduces an error of at most (14 + 18·Λ·W·K²)·ε, where K exceeds the number of relations into any concept and Λ bounds the slopes; after t steps every recorded value differs from the real one by at most 1 + q + … + q^(t-1) times that, where q bounds slope times total absolute weight. If q < 1 the error therefore never grows beyond a constant, also of the final value, and the floating-point run approaches the real equilibrium up to this constant. For functions that jump no such bound exists: an underflow switches a bistate concept.

Spec: `Spec.Represents` (the same map over the floating-point numbers and over the reals), `Spec.SameFn`, `Spec.stepError`, on the networks of C01 and with `Flat` of C78. The accuracy law `Accurate` is proved of the doubles from the definition of rounding (`magnitude_near`: the numbers m·2^(k-52) with 2^k ≤ x < 2^(k+1) are representable). Error of one step at the same state: rescaling 7ε, product 11Wε (`product_near`), partial sums of j terms stay within 3Wj by monotone rounding, so each addition costs at most ε(1+3WK) (`add_near`, `fold_near`); the functions cost ε(14+Λ|x|) (`sigmoid_near` with the overflow of the exponential in `large_inv`, `sigmoidHip_near`, `relm_near`, `saturation_near`) and carry the error of their input with their slope (`callActv_slope`). Induction over the run with the contraction of C78 (`run_near`), against the real run or against the constant equilibrium of C79. Cases: Ex.flat and its counterpart over the doubles agree in 13 decimals at every step; Ex.jumpF/jumpR for the counterexample.

*Scope:* Iterative engine. The accuracy law (Accurate in Lemmas/Rounding.lean) is proved of Binary64.format with ε = 2^-53 (Binary64.accurate), whose exponential is correctly rounded; for a library whose exponential is off by a few units ε is larger accordingly. The final value: LAST, with stop_at_stabilize off, so that both runs have the same length (C115_length). C115_jump proves that the bound fails without bounded slopes. Sums are made from left to right.

*Theorems:* `C115_error`, `C115_bounded`, `C115_equilibrium`, `C115_length`, `C115_last`, `C115_jump`.

### C116 Fuzzy c-means in several dimensions (proved)

cmeans clusters samples with any number of columns. Every iteration gives positive memberships that sum to 1 per sample; every centre is, in all coordinates at once, a mean of the samples with positive weights (so it lies within their convex hull); distances are Euclidean; the objective is the weighted sum of squared distances; a sample belongs to a nearer centre at least as much as to a farther one; memberships are 1 / Σ_k (d_i/d_k)^(2/(m-1)) unless a ratio of distances is below the machine epsilon. The run stops after the first round that moves the memberships by less than error, at the latest after maxiter-1 rounds, and returns that round's results, the objective of each round and a partition coefficient between 1/c and 1. The objective never increases from round to round as long as nothing is clamped. On a single column it is the one-dimensional algorithm of C46, C47, C62, C63, C80, C81 and C92.

Model/Points.lean: samples are lists of coordinates; weights, normalisation, powers and the partition coefficient are the dimension-independent code of Model/Clustering.lean. Spec: `Spec.gap` (Euclidean distance as a finite sum), `Spec.Blend` (mean with positive weights), `Spec.remote`, `Spec.moved`, `Spec.PtRounds`. Entry by entry as in C80; the run by induction over the rounds (`ptLoop_run`). The objective: `best_memberships` of C81, and `best_centre` in each coordinate after exchanging the sums over samples and coordinates. Refinement to the one-dimensional model: sqrt((x-c)²) = |x-c| and induction over the rounds.

*Scope:* Real arithmetic, data of any dimension (Model/Points.lean). C116_one_column: for one column it is the model of Model/Clustering.lean.

*Theorems:* `C116_step`, `C116_centres`, `C116_blend`, `C116_objective`, `C116_memberships`, `C116_nearer`, `C116_cmeans`, `C116_round`, `C116_history`, `C116_one_column`.

### C117 Robust-learning fuzzy c-means in several dimensions (proved)

RlFuzzyCmeans.fit on at least two samples with any number of columns never divides by zero nor takes a logarithm of zero. It starts with each sample as its own cluster; each round computes memberships as Gaussians of the Euclidean distance weighted with the proportions, updates the proportions, drops clusters of less than one sample and sets each centre to the weighted mean of the samples in every coordinate; it ends with one cluster or when the centres move less than error (Frobenius norm). After every round the proportions are positive and sum to 1, memberships are positive and sum to 1 per sample, and the centres are means of the samples with positive weights; more rounds never mean more clusters. On one sample it raises ZeroDivisionError. predict gives each element the first of the centres nearest in Euclidean distance. On a single column it is the algorithm of C48, C64, C65 and C93.

Spec: `Spec.PtMixture`, `Spec.Hull`, `Spec.ptShare`, `Spec.PtRlStep`, `Spec.PtRlStart`, with `Spec.rlWeight`, `Spec.rlKept`, `Spec.Highest` of C93. The invariant of C48 with convex hulls in place of intervals (`ptRound_ok`), each round evaluated to sums over indices (`C117_round`), the run by induction over the rounds; the search loop of `predict` as in C64. Refinement to the one-dimensional model as for C116.

*Scope:* Real arithmetic, data of any dimension (Model/Points.lean).

*Theorems:* `C117_round`, `C117_run`, `C117_shrink`, `C117_single`, `C117_predict`, `C117_one_column`, `C117_predict_one`.

### C118 What a joined map is and how it runs (proved)

Whenever join_maps returns for a non-empty sequence, the result can be built through the API without an exception and has the settings of the first map (iterations, extra steps, stopping, threshold, decision function, memory, activation function with arguments, weight). Each of its concepts comes from the first map that contains it: it is active, excited by Kosko's rule, uses the memory setting of the very first map, and is a decision concept exactly if it was one there. It keeps its activation function if that has another name than the function of its map, and otherwise gets the function of the very first map (so a concept of a later map can silently change its function). The union of maps without common concepts and repeated relations, all of whose concepts have these properties already, contains each map unchanged: as long as one of the maps runs alone, the joined map goes through the same values, and it runs at least as long; with a fixed number of steps it returns exactly if all maps do, with the same trajectories and final values. Joining a single map without repeated relations is exporting and importing it.

`joinMaps` (Model/Join.lean) on the documents written by `toJson` (Model/Json.lean). `Home` (first map of the list with the concept), `Configured`, `Becomes`, `Disjoint`, `Kept`, `SamePace` are stated on maps and concepts without reference to documents. `join_shape` traces a joined concept back through the accumulated dictionary to the description written by its home map; with distinct relation names `collectRel` keeps the relations in order (`join_arcs`), so that the network of each map and the joined one agree on the concepts of the map (`join_beside`), and the runs by `run_agree` (C76) and `run_returns` (C111). Cases: Ex.side1, Ex.side2 (with a self-relation and a concept with a function of its own), and Ex.side3 for the change of function. Kept.notRun: the document contains the current value, not the initial one, so a map that has run is joined with its final values.

*Scope:* C118_switch exhibits the silent change of the activation function and shows that the condition on the functions is needed.

*Theorems:* `C118_settings`, `C118_concepts`, `C118_prefix`, `C118_returns`, `C118_beside`, `C118_single`, `C118_switch`.

### C119 The text of to_json means the exported map (proved)

Every JSON value with distinct keys is read back from its text exactly (json.loads after json.dumps), with any white space around it; the text is printable ASCII whatever the names contain (quotes, line breaks, letters of any alphabet, characters beyond the basic plane), and different values have different texts. Whatever text is read, writing and reading the result again changes nothing. Hence, for every map that to_json accepts, whose argument names are distinct and whose numbers can be spelt, json.loads of the text yields the exported dictionary and from_json of the text does what from_json of the dictionary does: for the maps whose export loses nothing it gives the map back. from_json depends only on the values under its eleven keys, not on the order of the entries nor on further entries. For an arbitrary text, from_json returns a map that can be built through the API or raises the exception 'Cannot load json data due: …'. join_maps, which passes every map and the result through a text, is the join of the documents.

Model/JsonText.lean renders `json.dumps` (escapes, separators) and `json.loads` (a recursive-descent reader over the characters, with strings, numbers, white space, repeated keys) on a type `Json` of values; `docJson`, `readDoc` translate documents. `Spec.Proper` (distinct keys, numbers by the grammar `Spec.IsNumber`) does not mention the reader. `readValue_dumps`: induction over the value, every piece followed by an arbitrary rest; `read_spec`: induction over the fuel, what is read is proper and consumes text, so that the fuel (the length of the text) never runs out (`read_fuel`, C119_fuel). Surrogate pairs and hexadecimal digits are computed (`readChar_escape`). `C119_document` reads the fields back one by one; `toJson_plain`: an exported document has no numpy arrays; `joinDescs_dictionaries`: the argument dictionaries of a joined document are those of the maps. Cases: a value with all kinds of escapes, texts that are no JSON, the map Ex.mapJ with decimal numerals.

*Scope:* The spelling of floating-point numbers is a parameter: the theorems ask that the numbers of the document are spelt as JSON numbers which read back (Python guarantees this for float.__repr__); integers are proved.

*Theorems:* `C119_value`, `C119_spaces`, `C119_read`, `C119_fuel`, `C119_distinct`, `C119_ascii`, `C119_int`, `C119_document`, `C119_load`, `C119_text`, `C119_error`, `C119_any`, `C119_keys`, `C119_reload`, `C119_join`.

### C120 Maps of two- and three-valued concepts end in a cycle (proved)

If all concepts of a map have the function biestate or threestate, every run of the iterative engine, and every run recorded by the vectorised one, is periodic after its beginning: with K = 2^(number of two-valued concepts) * 3^(number of three-valued ones), there are a >= 1 and p >= 1 with a + p <= K + 1 such that from step a on the whole state repeats every p steps. If the stability difference is smaller than the distance of the values (any from 0 to less than 1/2), extra_steps is at least 3 and the iterative engine stops before the limit of iterations, the map is at rest: the last two states are equal and a further step changes nothing. With stop_at_stabilize the iterative engine needs at most K + extra_steps + 1 iterations, unless the state changes in every step up to the end of the run. The vectorised engine gives no such guarantee: it compares sums of activations and stops inside a cycle (two concepts that exchange their values).

Spec: `Stepwise`, `stateCount`, `Spec.fewValues`, `Spec.Tells`, `Spec.Rests`. Pigeonhole on the list of all choices of values (`choices_length`, `repeats`): among the states at steps 1 to K + 1 two are equal, and equal states have equal successors because a step depends only on the concepts of the map (`follow`, from `next_congr` and `origins`). `rest_early`: a state that equals its successor is followed by itself; going back a multiple of the period, the first such state lies within the first K steps. With the stopping rule of C03 (`StopsAt`, `Quiet`) this bounds the length of the run. Cases: Ex.swap (two concepts that exchange their values for ever), Ex.settle (a two-valued and a three-valued concept that come to rest).

*Scope:* C120_vector_stop_counterexample: the vectorised engine, which compares sums of activations, stops inside a cycle (part of the statement).

*Theorems:* `C120_cycle`, `C120_stop`, `C120_time`, `C120_tells`, `C120_vector`, `C120_vector_stop_counterexample`.

### C121 Two-valued maps without inhibition compute reachability (proved)

Let all concepts of a map be two-valued (biestate) with the excitation KOSKO, all weights non-negative and all initial activations non-negative. At every step t >= 1 every activation is 0 or 1, and a concept is positive at step t exactly if a walk of t steps leads to it from a concept that was positive at the beginning, where one step follows a relation of positive weight out of an active concept or, at a concept with memory influence, waits. If all concepts have memory, these are exactly the concepts reached by a path of at most t such relations. With initial activations 0 or 1, decision function LAST, a stability difference in [0,1), extra_steps >= 2 and max_iter at least the number of concepts plus 2, run_inference returns and the final value of every concept is 1 if it can be reached from a concept that started at 1, and 0 otherwise. The vectorised engine does the same (max_iter at least the number of concepts plus extra_steps plus 2, stability difference in (0,1]), except that there inactive concepts pass on their activation and of several relations between two concepts only the last one counts.

Spec: `Spec.Walk` (walks of a relation), `Passes`, `PassesLast`, `Keeps`, `Spreading` on the concepts and relations of the map. `spread_next`: a sum of non-negative terms is positive exactly if one of them is, so a concept is positive exactly if something positive feeds it; induction over the run (`spread_run`). The set reached in at most t steps grows, each state determines the next, hence it is complete after as many steps as there are concepts (`grows_until`, cardinality) or after one step without change (`stays`). `C121_final` combines this with the stopping rule (C03) and LAST (C08), `C121_vector_final` with C105: the state grows, so that an unchanged sum of activations means an unchanged state (`sum_grows`). Case: Ex.rumor, with an inactive concept on the way.

*Scope:* Both engines; the vectorised one with its own notion of which relations count (C105).

*Theorems:* `C121_walks`, `C121_paths`, `C121_final`, `C121_vector_walks`, `C121_vector_final`.

### C122 Going on without a reset (proved)

run_inference(reset=False) with the iterative engine: it starts at the current values of the concepts (after a run: the final values), appends to every record the states of the recurrence that follow them, until extra_steps - 1 tests in a row found no reason to go on (the tests count the steps of this call only, but compare the ends of the whole records, so that the first one compares a new value with the last value recorded earlier), and decides the final values from the whole records. It takes at least extra_steps steps if max_iter > 1 and extra_steps >= 2, and at most max(1, max_iter) + extra_steps - 2. With LAST, after a run, the record up to the final state followed by what is appended is one run of the recurrence from the initial activations. After any number of such calls run_inference() reproduces the first run, record and final values. With the vectorised engine the records are not extended but replaced: the call returns or raises, and leaves the same map, as run_inference() on the map whose records are its current values; a later run_inference() repeats this call and not the first run.

Spec: Spec/Continue.lean (`lastMove`, `Tired`), `Continued`, `GoneOn`, with `IsRun` and `StopsAt` from C01 and C03. `CleanReachable.aux`: no inputs are pending between calls that returned, shown for every operation. `Going` is the loop invariant of the iterative engine started on arbitrary records: what was recorded before is kept, what was recorded since is a run from the stored values; `Count` is the invariant of the counter of extra steps. `C122_last` glues the two runs together at the final state. `C122_again`: the first entries of the records are kept, so reset_execution gives the map the first run started from (`reset_after_run`). Vectorised engine: it reads the stored values and overwrites all records (`storeRows_rebased`), so the call equals a run with a reset on `FCM.rebased`. Cases: Ex.faded (iterative), Ex.fadedV and Ex.oddDone (vectorised).

*Scope:* C122_vector_counterexample: going on with the vectorised engine loses the start of the first run (part of the statement).

*Theorems:* `C122_continue`, `C122_steps`, `C122_last`, `C122_again`, `C122_vector`, `C122_vector_again`, `C122_vector_records`, `C122_vector_counterexample`.

### C123 Maps without feedback settle and forget their start (proved)

Call a map free of feedback if no concept comes back to itself along relations that start at active concepts, and every concept is either without memory or an input: no active concept has a relation into it and its own update leaves its initial activation as it is. After run_inference with the iterative engine the value of a concept is the same at every recorded step from the step on that no chain of such relations ending at it is long enough to reach, at the latest from step n on for n concepts; it does not depend on the initial activations of concepts that are no inputs (so init_concept on one of them changes nothing from then on). There is at most one state that every update leaves as it is and that agrees with the inputs. With stop_at_stabilize and a stability difference that accepts a standstill (over the reals: one that is not negative) the run takes at most n + extra_steps + 1 iterations, whatever max_iter is. With LAST, extra_steps >= 2 and max_iter >= n + 2, and with stop_at_stabilize off or a stability difference that accepts no movement (over the reals: 0), the final values are that state, and init_concept on a concept that is no input does not change them. With the usual stability difference the run may end earlier, in another state, and a concept with memory that is no input may take longer. The vectorised engine records values that settle in the same way, where relations of inactive concepts count too.

Spec: `Sends`, `Holds`, `Forward`, `Resting`, with `Walk` from C121 and `next` from C01. `next_local`: the next value of a concept depends on the active concepts with a relation into it, and on its own value only if it has memory. `settles`: two sequences that follow the recurrence, with the same constant values at the inputs, agree at a concept at any two steps that no walk to it reaches, by induction on the length of the walk; a run against itself, a run against another start and a run against a resting state are three uses of it. `no_long_walk`: pigeonhole on the concepts of a walk. The stopping time and the final values follow with C03 (`StopsAt`) and C08. `Ex.ladder` has five concepts, one of them an input and one inactive that would close a cycle; `Ex.C123_early` and `Ex.C123_memory` are runs where a condition is missing.

*Scope:* Ex.C123_early and Ex.C123_memory show that the conditions on the stability difference and on memory are needed (part of the statement).

*Theorems:* `C123_forgets`, `C123_depth`, `C123_settles`, `C123_one`, `C123_stops`, `C123_final`, `C123_init`, `C123_init_final`, `C123_zero`, `C123_accepts`, `C123_vector`.

### C124 Concepts that are alike can be merged (proved)

Let every concept of a map belong to a group, and let a second map have one concept for each group, such that a concept and the one that stands for its group have the same activation function, memory flag, excitation function and fuzzy normaliser, the same initial activation, and for every group the weights of the relations into the concept from active members of the group add up to what the weights of the relations between the two standing concepts add up to; the two maps have the same settings. Then run_inference with the iterative engine returns for the first map exactly if it does for the second, and every concept has, record for record, the trajectory and the final value of the concept that stands for it, whatever the decision function. In particular, if a rearrangement of the concepts of a map leaves relations, settings and initial activations as they are, a concept and its image have the same trajectory and final value. The vectorised engine (for which inactive concepts count and the last of several parallel relations) records the same values at the steps that both maps record, but may stop at different steps, because it compares sums over all concepts.

Spec: `groupPull` (the sum of the weights from a group), `Merges`, `SameRules`, with `next` and `IsRun` from C01. `total_groups` regroups the left-to-right sum of the inputs of a concept by the group they come from (`Distributes`: commutative, associative, distributive arithmetic); `lump_next`: one step commutes with the grouping; `lump_run` by induction on the step. `lump_quiet`: the stability test of the iterative engine looks at each concept and the grouping is onto, so both runs stop at the same length (`StopsAt.unique`). `C124_returns` uses C111: a run of one map is turned into a run of the other. `Ex.team` has parallel relations and an active and an inactive concept in one group.

*Scope:* Ex.C124_lengths: the vectorised engine stops at different steps (part of the statement). For the vectorised engine the final values are not compared.

*Theorems:* `C124_returns`, `C124_same`, `C124_twins`, `C124_vector`, `Ex.C124_lengths`.

### C125 Mutual influence leads to rest or to swinging between two states (proved)

Let all concepts of a map be two- or three-valued (biestate, threestate) and let influence be mutual: for any two concepts the weights of the relations from the first to the second add up to what the weights from the second to the first add up to (counting nothing for inactive concepts and twice for concepts rescaled to [-1,1]). Then, with either engine, from the step that is the number of states of the map on, every concept has the value it had two steps before: the map rests or swings between two states, each of which follows the other under the recurrence; longer cycles do not occur. If moreover every concept is held by its memory and its relations to itself at least as strongly as by all other concepts together, the map comes to rest, and with stop_at_stabilize and a stability_diff between 0 and 1/2 the iterative engine records at most as many states as there are plus extra_steps plus 1. A run of the iterative engine that is longer than this swings between two different states to its end. For one-way influence longer cycles occur, and without memory maps with mutual influence do swing.

Spec: `coupling`, `Mutual`, `Anchored`. The input of a concept is linear in the activations (`next_field`), and each value is the best answer to its input with respect to a potential whose ties are the thresholds of the function (`best_step`). So the energy of two consecutive states never increases, and if it stays the same no value is larger than two steps before (`energy_le`; Goles and Olivos). C120 gives a period; along a period the energy is constant, hence the sum of two consecutive values of each concept too, hence the period is at most 2 (`two_steps`). If the quadratic form of the couplings is non-negative (diagonal dominance, `form_nonneg`) two states that follow each other are equal (`no_swing`). Trusted beyond C120: nothing; real arithmetic only.

*Scope:* Ex.C125_ring and Ex.C125_unanchored show that mutuality and the anchor are needed.

*Theorems:* `C125_two`, `C125_pair`, `C125_rests`, `C125_stops`, `C125_swings`, `C125_vector`, `C125_vector_rests`, `Ex.C125_ring`, `Ex.C125_unanchored`.

### C126 With mutual influence and smooth functions a map settles or nears a rhythm of period two (proved)

Let the function of every concept be saturation, or sigmoid, sigmoid_hip or relm with a lambda_val that makes it rise, no more than l times as steep as the identity; let influence be mutual (as in C125) and let the initial activations be between -1 and 1. Call T the sum over all concepts of the strengths with which all concepts act on it, by relations and by memory. Then, with either engine and however long the run, the squared differences between each activation and the one two steps before add up to at most 24 l T. If moreover every concept is held by itself at least as strongly as by all others together, the squared differences between consecutive activations add up to at most 12 l T; so at most 12 l T / e^2 steps move some concept by more than e. Then, with stop_at_stabilize, the iterative engine records at most 3 + (extra_steps - 1) (12 l T / stability_diff^2 + 1) states, whatever max_iter is; and the vectorised engine returns without an error if max_iter is at least 2 + j extra_steps for some j above 12 l T / stability_diff^2 times the number of concepts (decision function other than EXITED). No smallness of the weights is needed. Without the anchor smooth maps swing for ever, and with one-way influence they go round in longer circles.

Spec: `coupling`, `Mutual`, `Anchored` of C125, `totalPull`, `shifted`. Each function is rising and l-Lipschitz (`callActv_rises`, `callActv_slope`), so it has a convex primitive F which lies above its tangents by at least the squared change of the function over 2l (`above_tangent`, co-coercivity, proved by integrating). With the potential h·f(h) − F(h) each new value beats any other one by that margin (`SoftRun.better`), so the energy of two consecutive states falls by the squared two-step change over 2l (`SoftRun.two`), and, if the form of the couplings is non-negative, the energy of one state by the squared one-step change (`SoftRun.one`). Both energies are bounded by the inputs (`pot_range`, `grips_le`). Stopping: every window that does not end the run contains a step that moves some concept by more than stability_diff; for the vectorised engine, which compares sums of activations, Cauchy–Schwarz adds the factor of the number of concepts.

*Scope:* Real arithmetic. Ex.C126_unanchored and Ex.C126_wheel show that the anchor and mutuality are needed.

*Theorems:* `C126_two`, `C126_one`, `C126_steps`, `C126_stops`, `C126_vector_two`, `C126_vector_one`, `C126_vector_returns`, `Ex.C126_unanchored`, `Ex.C126_wheel`.

### C127 Excitatory maps have a least and a greatest equilibrium, and runs that start one way settle (proved)

Let all relations of a map excite (no weight is negative) and let all functions rise (biestate, threestate, saturation, sigmoid, sigmoid_hip and relm with a lambda_val that makes them rise, gceq with a weight of at least 0, lceq with one of at most 0). Then among the states that the recurrence leaves unchanged there is a least and a greatest one, concept by concept. A run that starts below an equilibrium stays below it, and one that starts above stays above. If the first step lowers no concept, no step lowers a concept; if it raises none, none does; the first is so from -1 everywhere, the second from 1 everywhere. A run from below all equilibria that comes to rest is in the least one. If a run starts one way from activations in [-1,1], all changes of all concepts add up to at most twice the number of concepts, so with stop_at_stabilize the iterative engine records at most 2 + (extra_steps - 1) (2 n / stability_diff + 1) states, whatever max_iter and however large the weights; and the vectorised engine returns if max_iter is at least 1 + j extra_steps for some j above 2 n / stability_diff (decision function other than EXITED). A run that starts neither way may swing for ever.

Spec: `Excitatory` (C77), `Equilibrium` (C79), `Uphill`, `Downhill`. One step keeps the order of states (`next_order`), so the step is a monotone function on the states with values in [-1,1], a complete lattice: least and greatest fixed points by Knaster and Tarski (`extremes`). Induction over steps gives `rises`, `falls`, `stays_below`, `stays_above`. Along a run that goes one way the absolute changes telescope (`way`). Stopping: every window that does not end the run contains a step whose change exceeds stability_diff. The vectorised engine compares the sums of the activations, whose change is at most the sum of the changes.

*Scope:* Real arithmetic. Ex.C127_swap shows that starting one way is needed for settling.

*Theorems:* `C127_extremes`, `C127_between`, `C127_way`, `C127_ends`, `C127_rest`, `C127_sum`, `C127_stops`, `C127_vector_extremes`, `C127_vector_way`, `C127_vector_returns`, `Ex.C127_swap`.

### C128 Measures that do not tell premise from conclusion teach mutual influence (proved)

Call a measure of relations even if exchanging premise and conclusion does not change it. Support, lift, the odds ratio (odr) and the reduced odds ratio (rodr) are even; confidence, pos_inf, the bayesian measure and simple are not. If the measures for causality, for the weight and (where given) for the sign are even and double_relation is on, then in the map that AssociationBasedFCM builds from a table there is a relation from a to b of weight w if and only if there is one from b to a of weight w; for both inference engines the learned map is one of mutual influence in the sense of C125 and C126. So, from whatever activations, a learned map of two- and three-valued concepts comes, after at most as many steps as it has states, to rest or to swinging between two states; and if the concepts are smooth, the squared changes from each step to the next but one add up to a bound known beforehand. In particular, a table of categorical columns, learned with the default map and then initialised by any init_concept calls with values in [-1,1], yields a map whose run returns, and those squared changes add up to at most 24 times the total pull of the map (the absolute couplings of all concepts, memory included). With double_relation off an even causality measure teaches no relation between two input columns and none between two target columns, because the code takes the stronger direction and both are equally strong: relations between different columns then lead only from an input column to a target column.

Spec: `EvenMeasure` (exchanging the two mixed counts changes nothing), `Mutual` (C125), `presets` (several init_concept calls). The coefficients of the opposite direction are those of the given one with the mixed counts exchanged (`coef_swap`), so sign and weight agree (`relSign_swap`, `Weighs.swap`); with the description of all learned arcs from C38 (`CrossArc`, `exclArcs`) each arc has its opposite (`C128_both`). With one direction only, a strict comparison of equal numbers is false both ways (`C128_one`). All learned concepts have the same flags (`learned_flags`) and there are no parallel arcs, so the couplings are symmetric in both engines (`C128_mutual`), and C125 and C126 apply. For `C128_table` the learned map is clean, unstarted and of sigmoid_hip concepts (`learned_fn`), which survives init_concept (`Primed`).

*Scope:* Real arithmetic (the equality of both directions and C128_one for every ordered arithmetic in which the measures are even).

*Theorems:* `C128_supp`, `C128_lift`, `C128_rodr`, `C128_odr`, `C128_uneven`, `C128_both`, `C128_one`, `C128_mutual`, `C128_swings`, `C128_settles`, `C128_table`, `Ex.C128_compare`.

### C129 What is learned about two columns depends on these two columns only (proved)

Take two tables and let columns p and q of the first (which may be the same column) have the same cells as columns p' and q' of the second, the same role (target or not) and, if numeric, the same clusters. Then AssociationBasedFCM learns from the first table a relation of weight w from the concept 'v of p' to the concept 'u of q' if and only if it learns one of weight w from 'v of p'' to 'u of q'' from the second, whatever other columns the tables have, in whatever order the columns come, however they are called and in whatever order Python iterates sets. The concepts themselves agree in everything but their relations and the sum of their weights. So leaving columns out of a table leaves out the relations of their concepts and changes no other, and renaming columns renames concepts and changes no relation.

Spec: `SameColumn` (same cells, same role, same clusters), `ConceptOf` (C41), `Readable`. The features built from the two columns have the same type, the same descriptions and the same labels (`FeatureOf.kindred`). By the description of all learned arcs (`Built.mem`) and disjointness of concept names, an arc between two columns is there iff the pair rule gives it for these two features (`Built.between`), an arc inside a column iff it is an exclusion (`Built.inside`); neither mentions other columns. `C129_drop` and `C129_rename` are instances of `C129_local`.

*Scope:* Exact arithmetic is not needed, only an order and a commutative product.

*Theorems:* `C129_local`, `C129_concept`, `C129_drop`, `C129_rename`, `Ex.C129_compare`.

### C130 How the values of a categorical column are written does not matter for learning (proved)

Let one table arise from another by writing the values of categorical columns in another way (as other texts, truth values or numbers) such that different values stay different and the columns stay categorical; columns may also be renamed, reordered, added or left out. Then a relation of weight w from the concept 'v of p' to the concept 'u of q' is learned from the one table if and only if a relation of weight w between the renamed concepts is learned from the other, and every concept of a recoded column is a renamed concept. In particular a text column with fewer than ten different values may be factorised first, as load_csv_dataset(factorize=True) and load_dataset do. With ten or more it may not: texts are always categories, but integer codes with ten or more different values are taken for a quantity and clustered.

Spec: `Recoded` (an injective function on the cells of a categorical column, with the renaming of labels it causes; a numeric column keeps its cells and clusters). The row of a value in the one-hot matrix says where the value occurs (`oneHot_eq`), which an injective recoding does not change; the order in which numpy sorts the values plays no part because rows are compared as a set (`FeatureOf.matched`, `Matched.back`). The pair rule depends only on the two rows and the types (`CrossArc.transfer`). `C130_factorize` shows that pandas.factorize is such a recoding (C58).

*Scope:* C130_many proves where factorising does change what is learned.

*Theorems:* `C130_recode`, `C130_onto`, `C130_factorize`, `C130_many`, `Ex.C130_compare`.

### C131 With the default measures the relations between categorical columns are conditional frequencies (proved)

Let a map be learned with the default measures (confidence, support, threshold 0, no sign function, both directions). A value u of a categorical column is related to a value v of another categorical column if and only if some row has both, and then the weight is the share of the rows with v among the rows with u. The weight is 1 if and only if every row with u has v. The relations from u to the values of the other column have positive weights that add up to 1. Relations come in pairs tied by Bayes' rule: the number of rows with u times the weight from u to v is the number of rows with v times the weight from v to u.

Spec: `Standard` (the defaults of association.py:30-33), `sideBySide` (the rows reduced to two columns), `together` and `alone` (plain counts of rows). C59 says which arcs are learned in terms of the four counts and the two measures; with the default measures support is positive iff the values occur together, and confidence is the quotient (`learns_standard`). The sum over the values of the other column is the number of rows with `u` because every row has exactly one value there (`sum_together`); no two values share a concept because labels are injective (`text_inj`). Example: four cars, weights 2/3, 1 and none.

*Scope:* Real arithmetic.

*Theorems:* `C131_weight`, `C131_rule`, `C131_none`, `C131_total`, `C131_bayes`.

### C132 Stricter learning options only leave relations out (proved)

Let two maps be learned from the same table by configurations that differ only in causal_threshold, double_relation and features_relation. If the threshold of the second is not lower, and it asks for both directions or for relations among features only if the first does, then every relation of the second map is a relation of the first with the same weight. Precisely: a higher threshold leaves out the relations between categorical columns whose evaluation does not exceed it; features_relation=False leaves out the relations between two inputs or between two targets, except those inside a column; double_relation=False leaves, between an input and a target, exactly the relations towards the target. With the default measures and causal_threshold t >= 0 the relations between categorical columns are the association rules of the table with support above t: a relation from u to v is there if and only if the share of the rows with both exceeds t, and its weight is the share of v among the rows with u.

Spec: `limited` (the configuration with the three options replaced), `ConceptOf`, `Spec.measure`. The features of a table do not depend on the three options (`FeatureOf.unique`), so both maps relate two columns by the pair rule for the same two features (`Built.limited`), and inside a column both have the same exclusions. What is left is to compare the pair rule under the two configurations. Threshold: C59; with the default measures `learns_standard` (C131). Examples: one table learned with threshold 1/2, in one direction, and with relations to the target only (22, 8, 13 and 16 relations).

*Scope:* C132_threshold and C132_support (real arithmetic) speak of categorical columns; the others of all columns.

*Theorems:* `C132_fewer`, `C132_threshold`, `C132_targets`, `C132_towards`, `C132_support`, `Ex.C132_compare`, `Ex.C132_rare`.

### C133 The exclusion weight concerns only the values of one column (proved)

Let two maps be learned from the same table by configurations that differ only in exclusion_val. Between concepts of different columns both have the same relations with the same weights. Between two concepts of one column there is a relation if and only if exclusion_val is not 0, and its weight is exclusion_val. In particular exclusion_val=0 takes away exactly the relations inside the columns.

Spec: `excluding` (the configuration with another exclusion weight), `ConceptOf`. The features of a table and the pair rule do not mention the exclusion weight (`FeatureOf.unique`, `Built.between`); inside a column the description of the learned arcs gives exactly the exclusions (`Built.inside`). Example: 22 relations with exclusion, 16 without.

*Theorems:* `C133_between`, `C133_inside`, `C133_zero`, `Ex.C133_compare`.

## Where the code disagrees with its documentation or with the stated property

Proved disagreements (theorem in brackets):

* EXITED raises when the trajectory has exactly `extra_steps + 1` entries (C09).
* The vectorised engine ignores `is_active`, overwrites parallel relations, normalises fuzzy inputs only if the weight
  sum is positive (C10, C11), writes column `max_iter` of a matrix with `max_iter` columns when it does not stabilise
  (C12), drops the last column at exactly `max_iter` columns and confuses the value 2 with its filler (C13).
* `clear_all` keeps the prepared flag (C14); re-adding a concept keeps old relations in the relation list but not in the
  outgoing view (C16); a rejected `add_concept` makes the map unusable (C18), and `get_final_state` then disagrees (C21).
* `set_concept_properties` resets what it is not given (C19); `set_map_activation_function` does not reach concepts added
  later (C20); `is_stable` raises after run + `init_concept` and is meaningless after vectorised runs (C22).
* `fuzzy_set` mirrors negative inputs and fails on one-point descriptions (C23); equal non-positive values give 0/0 when
  scaled (C25); 'proportion' and 'MEAN' are advertised but unknown (C27).
* JSON forgets activity, excitation, memory flags, types other than decision, and fuzzy descriptions (C28); maps with
  fuzzy concepts cannot be joined (C30); separator text in names corrupts joined relations (C32).
* `pos_inf` leaves [-1,1] on fractional tables (C37); concept names of different features may collide (C38, C39, C41);
  `fit_inclination` has no effect (C40); truth values are predicted as text and ignored as inputs (C42, C45).
* The middle value of forced three clusters has memberships adding up to less than 1 (C49); `max_clusters=1` finds one
  cluster (C50); csv readers drop repeated rows and skip or reject ragged ones (C52, C57);
  an arff file of numbers without a column called `class` is not loaded (C99), a csv file without rows cannot be recoded (C98).
* A fuzzy concept without incoming relations makes the iterative engine raise `ZeroDivisionError` (C75). The stability test
  looks at all concepts, so unrelated concepts change the length of each other's trajectories (C76).
* `np.array` gives a list of rows one type, so a truth value or number beside a text becomes a text (C84); a column of `y`
  with the name of a column of `x` swaps their roles (C85); `fit` and `score` refuse dictionaries (C86); concepts left by a
  rejected `add_concept` are not drawn, relations of re-added concepts neither (C87, C88).
* `build_fcm` into a map that has a concept named like a value of the table replaces that concept (C100); `reset` of a
  generator empties the map it returned before (C101).
* Samples with two equal highest memberships get a wrong silhouette (C89); `cfe` (clusters_estimation.py:138) multiplies
  each membership with the norm of a whole column (C91).

Observed while reading, outside the theorems:

* `extra_steps <= 1`: the iterative engine makes no step at all (proved: `C02_no_step`).
* After a failed refit the estimator still counts as fitted with its features reset; after a failed `add_concept`,
  `reset_execution` raises `KeyError` for ever (`C18_unusable`).
* `max_clusters >= data.size` halves it to a float and `range` then raises `TypeError` (proved: `C51_many`); an unknown
  method name is replaced by a function object.
* The gap method's start memberships are distances. `_update_alpha` (rl_fuzzy_cmeans.py:26,28) takes logarithms to base 2
  where `_compute_u` and `_update_r3` take natural ones (the variable is called `ln_accum`).
* Float columns with fewer than ten distinct values are treated as categorical; discrete bool/float values are looked up
  as integers.
* A concept whose trajectory starts at 2 (possible when concept names clash) makes the vectorised engine store empty
  trajectories, because 2 is its filler value; the next `fit` of the same estimator then raises IndexError in `clear_all`
  (proved: `C102_counterexample`).
* A value that was not in the fitted table can address a concept of another column: with a numeric column `_b` and a text
  column `b`, the value `0_` of `b` sets the cluster `0____b` of `_b`; the predicted label then depends on the order of
  the cells (proved: `C107_counterexample`).
* `fit(plot=True)` raises IndexError when a numeric column gets more than ten clusters (possible with rl-cmeans), although
  `fit` would return; the curves already drawn stay on the figure and end up on the next picture (proved:
  `C108_counterexample`, `C108_leak`). `predict(plot=True)` writes the pictures of all rows to the same file.
* `sigmoid_hip` cuts its exponent off at 500 on the negative side only, so that it is not odd there: replacing a concept by
  its opposite changes the run for large lambda (proved: `C112_counterexample`).
* Weights of 2^1023 and -2^1023 from the same PAPAGEORGIUS concept make the input of a concept NaN, which is recorded (proved:
  `C114_nan`); up to 2^53 / 3 this cannot happen.
* `join_maps` gives a concept that uses the activation function of its own map the function of the first map, even if that
  is another one (proved: `C118_switch`).
* `run_inference(reset=False)` extends the records with the iterative engine and replaces them with the vectorised one, so
  that there the initial activations are lost and a later `run_inference()` or `reset_execution()` starts from the final values
  of the run before (proved: `C122_vector_again`, `C122_vector_counterexample`). With the iterative engine and LAST the states
  of the extra steps are recorded twice (`C122_last`).
* With `double_relation=False` the builder keeps the stronger of the two directions and drops ties. Support, lift and both odds
  ratios give the same value in both directions, so with one of these as the causality measure no relation is ever learned among
  input columns or among target columns, whatever the data (proved: `C128_one`, `Ex.C128_compare`).
* `load_csv_dataset(factorize=True)` replaces texts by codes. A column with ten or more different texts then counts as numeric for
  `build_fcm`, which clusters the codes, although the same column unfactorised is categorical (proved: `C130_many`; with fewer
  than ten values factorising changes nothing but names, `C130_factorize`).
* `dual_quick_sort` does not terminate on NaN (proved: `C24_nan`).
* The repository's own unit tests are out of date: they assume `mem_influence=False` as the constructor's default and MEAN
  over the whole trajectory, and the generator and estimator tests expect a description of numeric columns that the code
  no longer makes. With those two differences allowed for, the model run on doubles reproduces the expected values
  (`Verif/Conformance`).
## Axioms of each theorem

(`#print axioms` on every theorem of the manifest.)

* none: C27_advertised_partial.
* `propext`: C17_unknown, C27_counterexample, C36_swap, C36_none, C101_emptied.
* `Quot.sound`, `propext`: C08_last, C22_before, C58_lossless, C58_faithful, C104_rl, C104_unknown, C105_same, C113_block, C122_steps.
* `Classical.choice`, `Quot.sound`, `propext`: C01_recurrence, C02_terminates, C02_bound, C02_exact, C02_no_step, C02_vector_bound, C03_stop_reason, C04_repeatable, C05_reset_after_run, C05_reset, C05_clear, C06_saturation, C06_bistate, C06_threestate, C06_sigmoid, C06_sigmoid_hip, C06_relm, C06_relm_slope, C06_gceq, C06_lceq, C06_fuzzy, C07_iterative, C07_vectorised, tame_of_args, C114_iterative, C114_vectorised, C08_final_value, C08_mean, C08_exited, C08_between, C09_exited_iff, C09_counterexample, C09_exited_partial, C09_false, C10_iterative, C10_added_partial, C10_counterexample_vector, C10_counterexample_fuzzy, C11_recurrence_partial, C11_same_partial, C11_counterexample_inactive, C11_counterexample_parallel, C11_counterexample_fuzzy, C12_inside_partial, C12_overruns, C12_zero_threshold, C12_counterexample, C13_recorded_partial, C13_tame_partial, C13_two, C13_counterexample, C14_coherent_partial, C14_counterexample, C15_iterative, C15_vectorised_partial, C15_counterexample, C15_returns, C16_outgoing_partial, C16_counterexample, C16_counterexample_raise, C17_ends, C17_exported, C18_rejected_partial, C18_unusable, C18_repair, C18_counterexample, C19_unknown, C19_frame, C19_named_partial, C19_counterexample, C20_existing, C20_custom_kept, C20_added, C20_later_partial, C20_counterexample, C21_final_state_partial, C21_counterexample, C22_after_run_partial, C22_counterexample, C22_counterexample_vector, C23_interpolates_partial, C23_mirrored, C23_counterexample, C23_false, C24_sort, C24_nan, C25_scaled_partial, C25_stored_partial, C25_counterexample, C26_sigmoid_mono, C26_sigmoid_symm, C26_sigmoid_hip_mono, C26_sigmoid_fit, C26_sigmoid_hip_fit, C26_sigmoid_hip_fit_nonneg, C27_both, C27_same, C27_false, C28_roundtrip_partial, C28_runs_partial, C28_forgets, C28_fuzzy, C28_counterexample, C29_error, C29_built, C110_from_json, C30_concepts_partial, C30_returns, C30_counterexample, C31_values, C31_order, C32_relations_partial, C32_counterexample, C33_order_partial, C33_plain_partial, C33_counterexample, C34_concept, C34_value, C34_relation, C34_empty, C35_matrix, C35_values, C35_one_hot, C35_exactly_one, C36_table, C36_nonneg, C37_supp, C37_conf, C37_simple, C37_pos_inf_partial, C37_counterexample, C37_false, C38_simple_partial, C38_counterexample, C39_exclusion_partial, C39_restriction_partial, C39_counterexample, C40_no_effect, C40_unfitted, C40_counterexample, C40_given_partial, C41_parse_partial, C41_default_partial, C41_injective, C41_counterexample, C42_predict_partial, C42_real_partial, C42_counterexample, C43_rows, C43_history, C44_accuracy, C44_scores, C45_category_partial, C45_number_partial, C45_trained, C45_counterexample, C46_step, C46_cmeans, C46_one, C116_step, C116_cmeans, C47_step, C116_blend, C48_mixture, C48_shrink, C48_single, C117_run, C117_shrink, C117_single, C49_rows, C49_three_partial, C49_counterexample, C50_points, C50_clusters_partial, C50_counterexample, C51_two, C51_returns, C51_many, C52_rows_partial, C52_all_rows_partial, C52_strip, C52_rectangular, C52_counterexample, C52_duplicate_names, C52_lines, C53_between, C53_listed, C54_iterative, C54_vectorised, C55_unfitted, C55_fitted, C55_refit, C56_sum_partial, C56_counterexample, C56_false, C57_loads_partial, C57_ragged, C57_text_only, C57_counterexample, C57_lines, C58_table, C59_learned, C60_builds, C60_default, C61_refit, C62_nearer, C116_nearer, C64_nearest, C64_predict, C117_predict, C66_learns, safe_default, C66_fits, C66_refits, C67_memberships, C68_weights, C69_bistate, C69_threestate, C69_saturation, C69_relm, C69_gceq, C69_lceq, C69_sigmoid, C69_sigmoid_hip, C70_supp, C70_conf, C70_lift, C70_odr, C70_rodr, C70_lift_odr, C70_pos_inf, C70_pos_inf_raises, C70_bayes, C70_simple, C70_empty, C71_added, C71_fuzzy, C72_names, C72_vector, C73_order, C73_fit, C73_discretization, C74_ratios_partial, C74_measures_partial, C74_fit_partial, C74_counterexample, C75_accepting, C75_succeeds, C75_counterexample, C111_returns, C111_raises, C76_upstream, C76_final, C76_init, C76_relation, C76_length_differs, C77_order, C77_init, C77_relation, C78_forgets, C78_stops, C78_bound, C79_equilibrium, C79_final, C80_centres, C80_objective, C80_memberships, C81_round, C81_history, C82_observed, C82_raises, C82_collision, C83_api, C83_careful, C83_idempotent, C84_rows_partial, C84_counterexample, C84_common, C84_kinds, C85_roles_partial, C85_shared, C85_positional, C85_counterexample, C85_names, C85_predict, C86_dict_partial, C86_accepts, C86_predicts, C86_cells, C86_counterexample, C86_unfitted, C86_scores, C87_curves_partial, C87_counterexample, C88_graph_partial, C88_counterexample, C89_silhouette_partial, C89_counterexample, C90_best, C90_discretize, C91_entropy_partial, C91_bounds, C91_counterexample, C92_run, C93_round, C93_run, C94_records, C94_returns, C94_real, C94_contracting, C94_decides, C95_accepts, C95_settings, C95_concepts, C96_accepts, C96_refused, C96_ignored, C96_number, C97_predicts, C98_loads, C98_distinct, C98_no_rows, C98_lines, C99_loads_partial, C99_numbers, C99_rejects, C99_counterexample, C100_extends_partial, C100_keeps, C100_runs, C100_counterexample, C101_reset_partial, C101_counterexample, C102_iterative_partial, C102_returned_partial, C102_own_partial, C102_counterexample, C103_learn, C103_fit, C103_predict, C103_score, C103_real, C103_vectorised, C104_gap, C104_build, C104_fit, C104_same, C105_step, C105_records, C105_returns, C105_real, C105_decides, C105_rest, C106_predicts, C106_orbit, C106_coarse, C107_order, C107_start, C107_counterexample, C108_fit, C108_predict, C108_pictures, C108_standard, C108_always, C108_counterexample, C108_leak, C109_upstream, C109_init, C109_relation, C109_order, C109_forgets, C109_equilibrium, C109_returns, C110_new, C110_add_concept, C110_set_concept, C110_set_default, C110_decision, C110_activation, C110_relation, C110_init, C110_clear, C110_stable, C110_final, C111_depends, C111_records, C112_iterative_partial, C112_vectorised_partial, C112_all_partial, C112_turnable, C112_counterexample, C113_outcomes, C113_iterative, C113_vectorised, C113_early, C114_no_nan, C114_no_nan_vectorised, C114_returns, C114_nan, C115_error, C115_bounded, C115_equilibrium, C115_length, C115_last, C115_jump, C116_centres, C116_objective, C116_memberships, C116_round, C116_history, C116_one_column, C117_round, C117_one_column, C117_predict_one, C118_settings, C118_concepts, C118_prefix, C118_returns, C118_beside, C118_single, C118_switch, C119_value, C119_spaces, C119_read, C119_fuel, C119_distinct, C119_ascii, C119_int, C119_document, C119_load, C119_text, C119_error, C119_any, C119_keys, C119_reload, C119_join, C120_cycle, C120_stop, C120_time, C120_tells, C120_vector, C120_vector_stop_counterexample, C121_walks, C121_paths, C121_final, C121_vector_walks, C121_vector_final, C122_continue, C122_last, C122_again, C122_vector, C122_vector_again, C122_vector_records, C122_vector_counterexample, C123_forgets, C123_depth, C123_settles, C123_one, C123_stops, C123_final, C123_init, C123_init_final, C123_zero, C123_accepts, C123_vector, C124_returns, C124_same, C124_twins, C124_vector, Ex.C124_lengths, C125_two, C125_pair, C125_rests, C125_stops, C125_swings, C125_vector, C125_vector_rests, Ex.C125_ring, Ex.C125_unanchored, C126_two, C126_one, C126_steps, C126_stops, C126_vector_two, C126_vector_one, C126_vector_returns, Ex.C126_unanchored, Ex.C126_wheel, C127_extremes, C127_between, C127_way, C127_ends, C127_rest, C127_sum, C127_stops, C127_vector_extremes, C127_vector_way, C127_vector_returns, Ex.C127_swap, C128_supp, C128_lift, C128_rodr, C128_odr, C128_uneven, C128_both, C128_one, C128_mutual, C128_swings, C128_settles, C128_table, Ex.C128_compare, C129_local, C129_concept, C129_drop, C129_rename, Ex.C129_compare, C130_recode, C130_onto, C130_factorize, C130_many, Ex.C130_compare, C131_weight, C131_rule, C131_none, C131_total, C131_bayes, C132_fewer, C132_threshold, C132_targets, C132_towards, C132_support, Ex.C132_compare, Ex.C132_rare, C133_between, C133_inside, C133_zero, Ex.C133_compare.
